import Verif.Props.EinsumSem
import Verif.Proofs.Lin
import Verif.Props.WickProduct
/-! # C62: the many-body equations stand for the expression -/
namespace Wicked
open CppLt CppEq Rational

section
variable {ι Ω A : Type} [DecidableEq ι] [Inhabited Ω] [DecidableEq Ω] [AddCommMonoid A]

/-- fix the values on a subset first, then sum over the rest -/
theorem sumOver_fix (L : List ι) (S : Finset ι) (hL : ∀ i ∈ L, i ∈ S) (d : ι → Finset Ω) (G : (ι → Ω) → A) :
    sumOver L.toFinset d (fun σ => sumOver S d (fun τ => if L.map τ = L.map σ then G τ else 0)) = sumOver S d G := by
  classical
  unfold sumOver
  rw [Finset.sum_comm]
  apply Finset.sum_congr rfl
  intro τ hτ
  rw [Fintype.mem_piFinset] at hτ
  let σ0 : {i // i ∈ L.toFinset} → Ω := fun i => τ ⟨i.1, hL i.1 (List.mem_toFinset.1 i.2)⟩
  rw [Finset.sum_eq_single σ0]
  · beta_reduce
    rw [if_pos]
    apply List.map_congr_left
    intro i hi
    rw [dif_pos (hL i hi), dif_pos (List.mem_toFinset.2 hi)]
  · intro σ _ hne
    beta_reduce
    rw [if_neg]
    intro h
    apply hne
    funext i
    have hi := List.mem_toFinset.1 i.2
    have := (List.map_inj_left.1 h) i.1 hi
    rw [dif_pos (hL i.1 hi), dif_pos i.2] at this
    exact this.symm
  · intro h
    exfalso
    apply h
    rw [Fintype.mem_piFinset]
    intro i
    exact hτ ⟨i.1, hL i.1 (List.mem_toFinset.1 i.2)⟩

theorem sumOver_smul {R : Type} [Semiring R] [Module R A] {ι' : Type} [DecidableEq ι'] (S : Finset ι') (d : ι' → Finset Ω) (F : (ι' → Ω) → R) (a : A) :
    sumOver S d F • a = sumOver S d (fun σ => F σ • a) := by
  unfold sumOver
  rw [Finset.sum_smul]
end

section
variable {Ω R A : Type} [Inhabited Ω] [DecidableEq Ω] [CommRing R] [Ring A] [Algebra R A]

/-- the left-hand-side tensor of a term -/
def lhsOf (label : Str) (t : STerm) : Tensor :=
  ⟨label, (t.ops.filter (·.isCre)).map (·.index), ((t.ops.filter (fun a => !a.isCre)).map (·.index)).reverse, .antisymmetric, false⟩

theorem ops_cre (σ : Index → Ω) (l : List SQOp) (h : ∀ a ∈ l, a.isCre = true) :
    (l.map (fun a => (a.type, σ a.index))) = (l.map (·.index)).map (fun i => (SQType.creation, σ i)) := by
  rw [List.map_map]
  apply List.map_congr_left
  intro a ha
  have := h a ha
  unfold SQOp.isCre at this
  cases ht : a.type
  · simp
  · rw [ht] at this; cases this

theorem ops_ann (σ : Index → Ω) (l : List SQOp) (h : ∀ a ∈ l, a.isCre = false) :
    (l.map (fun a => (a.type, σ a.index))) = (l.map (·.index)).map (fun i => (SQType.annihilation, σ i)) := by
  rw [List.map_map]
  apply List.map_congr_left
  intro a ha
  have := h a ha
  unfold SQOp.isCre at this
  cases ht : a.type
  · rw [ht] at this; cases this
  · simp

/-- the equation of a term whose creation operators stand to the left of its annihilation operators stands for the
term -/
theorem termEquation_value (v : OrbSystem Ω R A) (N : List (SQType × Ω) → A) (label : Str) (t : STerm) (c : Rational)
    (h : t.ops = t.ops.filter (·.isCre) ++ t.ops.filter (fun a => !a.isCre)) :
    (manybodyEquation label t c).operatorValue v N (lhsOf label t) = v.valueWith N t := by
  unfold OrbSystem.valueWith
  have hidx : (einsumIndices (lhsOf label t) (manybodyEquation label t c)).toFinset = t.allIdx.toFinset := by
    ext i
    have hops : i ∈ t.ops.map SQOp.index ↔ i ∈ (lhsOf label t).upper ++ (lhsOf label t).lower := by
      show _ ↔ i ∈ ((t.ops.filter (fun a => !a.isCre)).map (·.index)).reverse ++ (t.ops.filter (·.isCre)).map (·.index)
      rw [List.mem_append, List.mem_reverse]
      conv_lhs => rw [h, List.map_append, List.mem_append]
      exact or_comm
    simp only [List.mem_toFinset, einsumIndices, STerm.allIdx, List.mem_append, List.mem_flatMap] at hops ⊢
    rw [hops]
    constructor
    · rintro (⟨y, hy, hi⟩ | hi)
      · right; exact ⟨y, hy, hi.symm⟩
      · left; exact hi
    · rintro (hi | ⟨y, hy, hi⟩)
      · right; exact hi
      · left; exact ⟨y, hy, hi.symm⟩
  unfold Equation.operatorValue Equation.element
  rw [hidx]
  rw [← sumOver_fix ((lhsOf label t).upper ++ (lhsOf label t).lower) t.allIdx.toFinset (fun i hi => by
    rw [← hidx, List.mem_toFinset]; exact List.mem_append_right _ hi)]
  apply sumOver_congr
  intro σ _
  rw [sumOver_smul]
  apply sumOver_congr
  intro τ _
  split
  · next he =>
    have h1 := List.map_inj_left.1 he
    congr 1
    conv_rhs => rw [h, List.map_append]
    rw [ops_cre τ _ (fun a ha => by simpa using (List.mem_filter.1 ha).2),
      ops_ann τ _ (fun a ha => by simpa using (List.mem_filter.1 ha).2)]
    congr 2
    · apply List.map_congr_left
      intro i hi
      rw [h1 i (List.mem_append_right _ hi)]
    · show List.map _ (List.reverse (List.reverse _)) = _
      rw [List.reverse_reverse]
      apply List.map_congr_left
      intro i hi
      rw [h1 i (List.mem_append_left _ (List.mem_reverse.2 hi))]
  · rw [zero_smul]

/-- **C62**: for every expression over the registered spaces all of whose terms have their creation operators to the left of
their annihilation operators, for all orbitals and tensors and every way `N` to multiply operators (the ordinary product or a
normal product): the equations returned by `to_manybody_equation`, each read as its factor times the operator it stands
for, sum up to the expression. Missing with respect to the full claim: terms with an annihilation operator to the left of a
creation operator, for which it is false (`C62_order_lost`). -/
theorem C62_equations_value_partial [Algebra ℚ A] {o : OSI} (label : Str) {e : Expr} (h : ∀ p ∈ e, OpsRegistered o p.1)
    (hord : ∀ p ∈ e, p.1.ops = p.1.ops.filter (·.isCre) ++ p.1.ops.filter (fun a => !a.isCre)) (v : OrbSystem Ω R A) (N : List (SQType × Ω) → A) :
    ∃ m, e.toManybody o label = .ok m ∧
      ((m.flatMap Prod.snd).map (fun q => toRat q.factor • (q.lhs.tensors.map (fun t => q.operatorValue v N t)).sum)).sum = Lin.eval (v.valueWith N) e := by
  obtain ⟨m, hm, _, _, _, hperm⟩ := C55_partition label h
  refine ⟨m, hm, ?_⟩
  rw [(hperm.map _).sum_eq, List.map_map]
  unfold Lin.eval
  congr 1
  apply List.map_congr_left
  intro p hp
  show toRat p.2 • ((manybodyEquation label p.1 p.2).operatorValue v N (lhsOf label p.1) + 0) = _
  rw [add_zero, termEquation_value v N label p.1 p.2 (hord p hp)]

theorem pairwise_split (l : List SQOp) (h : l.Pairwise (fun a b => SQOp.ltB b a = false)) :
    l = l.filter (·.isCre) ++ l.filter (fun a => !a.isCre) := by
  induction l with
  | nil => rfl
  | cons a l ih =>
    rw [List.pairwise_cons] at h
    cases ha : a.isCre
    · have hl : ∀ b ∈ l, b.isCre = false := by
        intro b hb
        cases hbc : b.isCre
        · rfl
        · have := h.1 b hb
          simp [SQOp.ltB, ha, hbc] at this
      rw [List.filter_eq_nil_iff.2, List.nil_append, List.filter_eq_self.2]
      · intro b hb
        rcases List.mem_cons.1 hb with rfl | hb
        · simp [ha]
        · simp [hl b hb]
      · intro b hb
        rcases List.mem_cons.1 hb with rfl | hb
        · simp [ha]
        · simp [hl b hb]
    · rw [List.filter_cons_of_pos ha, List.filter_cons_of_neg (by simp [ha]), List.cons_append, ← ih h.2]

/-- the operators of a canonicalized term: creation operators first, all registered -/
theorem canonicalize_ops {o : OSI} {t t' : STerm} {f : Rational} (h : t.canonicalize o = .ok (t', f)) :
    t'.ops = t'.ops.filter (·.isCre) ++ t'.ops.filter (fun a => !a.isCre) ∧ OpsRegistered o t' := by
  obtain ⟨ρ, tensors, ts, hs⟩ := canonicalize_shape h
  obtain ⟨scores, tc, st, ts', h1, h2, h3, h4, h5, h6, h7⟩ := canonicalize_inv h
  refine ⟨?_, ?_⟩
  · apply pairwise_split
    rw [hs.res]
    exact sorted_fst (stdSort_sorted (enumFrom 0 _))
  · intro a ha
    have hin : a ∈ (t.ops.map (fun a => (⟨a.type, ρ a.index⟩ : SQOp))) := by
      obtain ⟨L, hL, e⟩ := canonicalizeSqops_eq (t.ops.map (fun a => (⟨a.type, ρ a.index⟩ : SQOp))) false
      rw [hs.res, e] at ha
      have := hL.map Prod.fst
      rw [enumFrom_map_fst] at this
      exact this.mem_iff.1 ha
    obtain ⟨b, hb, rfl⟩ := List.mem_map.1 hin
    have hsp : (ρ b.index).space = b.index.space := by
      by_cases hx : ∃ x ∈ t.tensors, b.index ∈ x.lower ++ x.upper
      · obtain ⟨x, hx, hi⟩ := hx
        exact hs.spaceT x hx _ hi
      · push Not at hx
        rw [hs.other _ hx]
    dsimp only
    rw [hsp]
    have := (foldIncr_spec (fun a : SQOp => a.index.space) t.ops _ tc h2).2.1 b hb
    rw [List.length_replicate] at this
    unfold OSI.numSpaces
    omega

/-- the terms returned by `contract` meet the hypotheses of C62 -/
theorem contract_ops {o : OSI} {cfg : WickCfg} {ops : OperatorProduct} (h8 : o.spaces.length ≤ 8)
    (hv : ∀ p ∈ ops, p.Valid o.spaces.length) {f : Rational} (hf : Canon f) {minr maxr : Int} {e : Expr}
    (h : Wick.contract o cfg f ops minr maxr = .ok e) : ∀ p ∈ e,
      p.1.ops = p.1.ops.filter (·.isCre) ++ p.1.ops.filter (fun a => !a.isCre) ∧ OpsRegistered o p.1 := by
  intro p hp
  obtain ⟨t, _, _, _, _, f', hcn⟩ := Wick.contract_mem h8 hv hf h hp
  exact canonicalize_ops hcn

/-- **C62** for the result of `contract`: for all operators, ranks, orbitals, tensors and products `N`, the many-body equations
of the result sum up to the result. -/
theorem C62_contract_equations [Algebra ℚ A] {o : OSI} {cfg : WickCfg} {ops : OperatorProduct} (h8 : o.spaces.length ≤ 8)
    (hvo : ∀ p ∈ ops, p.Valid o.spaces.length) {f : Rational} (hf : Canon f) {minr maxr : Int} {e : Expr}
    (h : Wick.contract o cfg f ops minr maxr = .ok e) (label : Str) (v : OrbSystem Ω R A) (N : List (SQType × Ω) → A) :
    ∃ m, e.toManybody o label = .ok m ∧
      ((m.flatMap Prod.snd).map (fun q => toRat q.factor • (q.lhs.tensors.map (fun t => q.operatorValue v N t)).sum)).sum = Lin.eval (v.valueWith N) e := by
  have := contract_ops h8 hvo hf h
  exact C62_equations_value_partial label (fun p hp => (this p hp).2) (fun p hp => (this p hp).1) v N

/-- **C62** and **C53**: for occupied and unoccupied spaces and operators without triple contractions, the many-body equations of
`contract` over all ranks stand for the product of the operators, in every algebra with the canonical anticommutation
relations. -/
theorem C62_equations_of_product_partial [Algebra ℚ A] {o : OSI} {cfg : WickCfg} {ops : OperatorProduct} (h8 : o.spaces.length ≤ 8)
    (hvo : ∀ p ∈ ops, p.Valid o.spaces.length) (h2 : NoTriples o ops) {f : Rational} (hf : Canon f) {minr maxr : Int} {e : Expr}
    (h : Wick.contract o cfg f ops minr maxr = .ok e) (hmin : minr ≤ 0) (hmax : totalOps o.spaces.length ops ≤ maxr)
    {v : OrbSystem Ω R A} (hv : v.Antisymmetric) (hcar : IsCAR v.op) {hole : Ω → Bool} (hvac : v.Vacuum o hole) (label : Str) :
    ∃ m, e.toManybody o label = .ok m ∧
      ((m.flatMap Prod.snd).map (fun q => toRat q.factor • (q.lhs.tensors.map (fun t => q.operatorValue v (normalProd hole v.op) t)).sum)).sum =
        toRat f • (ops.map (v.opValue hole o.spaces.length)).prod := by
  obtain ⟨m, hm, he⟩ := C62_contract_equations h8 hvo hf h label v (normalProd hole v.op)
  refine ⟨m, hm, ?_⟩
  rw [he]
  exact Wick.C53_operator_product_partial h8 hvo h2 hf h hmin hmax hv hcar hvac

/-- **C62**, negation: two terms that differ by the order of their operators, and therefore by a sign inside normal
products, have the same equation. -/
theorem C62_order_lost (label : Str) (ts : List Tensor) (i j : Index) (c : Rational) {v : OrbSystem Ω R A} (hv : v.Anticommute) :
    manybodyEquation label ⟨false, [⟨.annihilation, i⟩, ⟨.creation, j⟩], ts⟩ c = manybodyEquation label ⟨false, [⟨.creation, j⟩, ⟨.annihilation, i⟩], ts⟩ c ∧
      v.value ⟨false, [⟨.annihilation, i⟩, ⟨.creation, j⟩], ts⟩ = - v.value ⟨false, [⟨.creation, j⟩, ⟨.annihilation, i⟩], ts⟩ := by
  refine ⟨rfl, ?_⟩
  rw [value_sumOver, value_sumOver]
  have hs : (STerm.allIdx ⟨false, [⟨.annihilation, i⟩, ⟨.creation, j⟩], ts⟩).toFinset = (STerm.allIdx ⟨false, [⟨.creation, j⟩, ⟨.annihilation, i⟩], ts⟩).toFinset := by
    ext k; simp only [STerm.allIdx, List.mem_toFinset, List.mem_append, List.map_cons, List.mem_cons]; tauto
  rw [hs]
  unfold sumOver
  rw [← Finset.sum_neg_distrib]
  apply Finset.sum_congr rfl
  intro σ _
  unfold OrbSystem.inst
  simp only [List.map_cons, List.map_nil, List.prod_cons, List.prod_nil, mul_one]
  rw [hv, smul_neg]
end

/-! ## the equations of `contract` can be compiled to `einsum` -/

theorem renamed_tensor_mem {ρ : Index → Index} {t t' : STerm} (h : t.Renamed ρ t') (j : Index) :
    j ∈ t'.tensors.flatMap (fun x => x.lower ++ x.upper) ↔ ∃ i ∈ t.tensors.flatMap (fun x => x.lower ++ x.upper), ρ i = j := by
  have h' : STerm.Renamed ρ ⟨t.normalOrdered, [], t.tensors⟩ ⟨t'.normalOrdered, [], t'.tensors⟩ := ⟨h.1, by simp [STerm.subst], h.2.2⟩
  simpa [STerm.allIdx] using renamed_mem h' j

theorem forall₂_left' {α β : Type _} {R : α → β → Prop} {l : List α} {l' : List β} (h : List.Forall₂ R l l') :
    ∀ a ∈ l, ∃ b ∈ l', R a b := by
  induction h with
  | nil => simp
  | cons h1 _ ih =>
    intro a ha
    rcases List.mem_cons.1 ha with rfl | ha
    · exact ⟨_, by simp, h1⟩
    · obtain ⟨b, hb, hr⟩ := ih a ha
      exact ⟨b, by simp [hb], hr⟩

theorem canonicalize_tensors {o : OSI} {t t' : STerm} {f : Rational} (h : t.canonicalize o = .ok (t', f)) :
    ∀ i ∈ t'.tensors.flatMap (fun x => x.lower ++ x.upper), i.Registered o := by
  obtain ⟨ρ, tensors, ts, hs⟩ := canonicalize_shape h
  obtain ⟨scores, tc, st, ts', h1, h2, h3, h4, h5, h6, h7⟩ := canonicalize_inv h
  intro j hj
  obtain ⟨i, hi, rfl⟩ := (renamed_tensor_mem (canonicalize_renamed hs) j).1 hj
  obtain ⟨x, hx, hi⟩ := List.mem_flatMap.1 hi
  unfold Index.Registered
  rw [hs.spaceT x hx i hi]
  obtain ⟨sc, _, hsc⟩ := forall₂_left' ((mapM_ok_iff _ _ _).1 h1) x hx
  unfold STerm.score at hsc
  simp only [bind, Except.bind] at hsc
  split at hsc
  · cases hsc
  rename_i c1 e1
  split at hsc
  · cases hsc
  rename_i c2 e2
  have k1 := (foldIncr_spec (fun i : Index => i.space) x.lower _ c1 e1).2.1
  have k2 := (foldIncr_spec (fun i : Index => i.space) x.upper _ c2 e2).2.1
  rw [List.length_replicate] at k1 k2
  rcases List.mem_append.1 hi with hi | hi
  · exact k1 i hi
  · exact k2 i hi

theorem canonicalize_covered {o : OSI} {t t' : STerm} {f : Rational} (hc : t.Covered) (h : t.canonicalize o = .ok (t', f)) : t'.Covered := by
  obtain ⟨ρ, tensors, ts, hs⟩ := canonicalize_shape h
  have hR := canonicalize_renamed hs
  intro a ha
  have : a.index ∈ t'.allIdx := List.mem_append_left _ (List.mem_map_of_mem ha)
  obtain ⟨i, hi, hia⟩ := (renamed_mem hR _).1 this
  obtain ⟨x, hx, hix⟩ := Wick.covered_idx hc hi
  have := (renamed_tensor_mem hR a.index).2 ⟨i, List.mem_flatMap.2 ⟨x, hx, hix⟩, hia⟩
  exact List.mem_flatMap.1 this

/-- indices that pair up and all occur on tensors are different on the operators -/
theorem pair_nodup {t : STerm} (hc : t.Covered) (hp : t.IndicesPair) (label : Str) :
    ((lhsOf label t).upper ++ (lhsOf label t).lower).Nodup := by
  have hann : ∀ a ∈ t.ops, (!a.isCre) = true → a.type = .annihilation := by
    intro a _ h
    cases ht : a.type
    · simp [SQOp.isCre, ht] at h
    · rfl
  have hfa : t.ops.filter (fun a => !a.isCre) = t.ops.filter (fun a => decide (a.type = .annihilation)) := by
    apply List.filter_congr
    intro a _
    cases ht : a.type <;> simp [SQOp.isCre, ht]
  have hfc : t.ops.filter (·.isCre) = t.ops.filter (fun a => decide (a.type = .creation)) := by
    apply List.filter_congr
    intro a _
    cases ht : a.type <;> simp [SQOp.isCre, ht]
  have hidx : ∀ a ∈ t.ops, a.index ∈ t.allIdx := fun a ha => List.mem_append_left _ (List.mem_map_of_mem ha)
  show (((t.ops.filter (fun a => !a.isCre)).map SQOp.index).reverse ++ (t.ops.filter (·.isCre)).map SQOp.index).Nodup
  rw [hfa, hfc, List.nodup_append]
  refine ⟨List.nodup_reverse.2 ?_, ?_, ?_⟩
  · rw [List.nodup_iff_count_le_one]
    intro i
    by_cases hi : i ∈ (t.ops.filter (fun a => decide (a.type = .annihilation))).map SQOp.index
    · obtain ⟨a, ha, rfl⟩ := List.mem_map.1 hi
      have := (hp _ (hidx a (List.mem_filter.1 ha).1)).1
      unfold STerm.lowAnn at this
      rw [List.count_append] at this
      omega
    · rw [List.count_eq_zero_of_not_mem hi]; omega
  · rw [List.nodup_iff_count_le_one]
    intro i
    by_cases hi : i ∈ (t.ops.filter (fun a => decide (a.type = .creation))).map SQOp.index
    · obtain ⟨a, ha, rfl⟩ := List.mem_map.1 hi
      have := (hp _ (hidx a (List.mem_filter.1 ha).1)).2
      unfold STerm.uppCre at this
      rw [List.count_append] at this
      omega
    · rw [List.count_eq_zero_of_not_mem hi]; omega
  · rintro i hi j hj rfl
    rw [List.mem_reverse] at hi
    obtain ⟨a, ha, hai⟩ := List.mem_map.1 hi
    have ha' := (List.mem_filter.1 ha).1
    have hall := hidx a ha'
    obtain ⟨x, hx, hix⟩ := hc a ha'
    have h1 := (hp _ hall).1
    have h2 := (hp _ hall).2
    unfold STerm.lowAnn at h1
    unfold STerm.uppCre at h2
    rw [List.count_append, hai] at h1 h2
    have c1 := List.count_pos_iff.2 hi
    have c2 := List.count_pos_iff.2 hj
    rw [hai] at hix
    rcases List.mem_append.1 hix with hl | hl
    · have := List.count_pos_iff.2 (List.mem_flatMap.2 ⟨x, hx, hl⟩ : i ∈ t.tensors.flatMap Tensor.lower)
      omega
    · have := List.count_pos_iff.2 (List.mem_flatMap.2 ⟨x, hx, hl⟩ : i ∈ t.tensors.flatMap Tensor.upper)
      omega

/-- **C61** for the equations of `contract`: every term of the result, for all operators and ranks, gives an equation that
meets the conditions of `C61_einsum_computes_partial` on the indices: the indices are registered, those on the left are different and all of
them occur on the right. -/
theorem C61_contract_ready {o : OSI} {cfg : WickCfg} {ops : OperatorProduct} (h8 : o.spaces.length ≤ 8)
    (hvo : ∀ p ∈ ops, p.Valid o.spaces.length) {f : Rational} (hf : Canon f) {minr maxr : Int} {e : Expr}
    (h : Wick.contract o cfg f ops minr maxr = .ok e) (label : Str) {p : STerm × Rational} (hp : p ∈ e) :
    ∃ t, (manybodyEquation label p.1 p.2).lhs.tensors = [t] ∧ t.label = label ∧
      (∀ i ∈ einsumIndices t (manybodyEquation label p.1 p.2), i.Registered o) ∧ (t.upper ++ t.lower).Nodup ∧
      ∀ i ∈ t.upper ++ t.lower, ∃ y ∈ (manybodyEquation label p.1 p.2).rhs.tensors, i ∈ y.upper ++ y.lower := by
  obtain ⟨t, hc, hpair, _, _, f', hcn⟩ := Wick.contract_mem h8 hvo hf h hp
  have hc' := canonicalize_covered hc hcn
  have hp' := (Wick.canonicalize_pair hc hpair hcn).1
  have hmem : ∀ i ∈ (lhsOf label p.1).upper ++ (lhsOf label p.1).lower, ∃ y ∈ p.1.tensors, i ∈ y.upper ++ y.lower := by
    intro i hi
    have : ∃ a ∈ p.1.ops, a.index = i := by
      rcases List.mem_append.1 hi with hi | hi
      · obtain ⟨a, ha, rfl⟩ := List.mem_map.1 (List.mem_reverse.1 hi)
        exact ⟨a, (List.mem_filter.1 ha).1, rfl⟩
      · obtain ⟨a, ha, rfl⟩ := List.mem_map.1 hi
        exact ⟨a, (List.mem_filter.1 ha).1, rfl⟩
    obtain ⟨a, ha, rfl⟩ := this
    obtain ⟨x, hx, hi⟩ := hc' a ha
    exact ⟨x, hx, List.mem_append.2 (List.mem_append.1 hi).symm⟩
  have hreg : ∀ y ∈ p.1.tensors, ∀ i ∈ y.upper ++ y.lower, i.Registered o := by
    intro y hy i hi
    exact canonicalize_tensors hcn i (List.mem_flatMap.2 ⟨y, hy, List.mem_append.2 (List.mem_append.1 hi).symm⟩)
  refine ⟨lhsOf label p.1, rfl, rfl, ?_, pair_nodup hc' hp' label, hmem⟩
  intro i hi
  rcases List.mem_append.1 hi with hi | hi
  · obtain ⟨y, hy, hi⟩ := List.mem_flatMap.1 hi
    exact hreg y hy i hi
  · obtain ⟨y, hy, hi⟩ := hmem i hi
    exact hreg y hy i hi

-- the product of two operators of C53 in the Jordan-Wigner representation: the result has equations, and they sum up to the product
example : ∃ e m, Wick.contract exSR {} ⟨1, 2⟩ Wick.jwOps 0 4 = .ok e ∧ e.toManybody exSR ['r'] = .ok m ∧ (m.flatMap Prod.snd).length = 4 ∧
      ((m.flatMap Prod.snd).map (fun q => toRat q.factor • (q.lhs.tensors.map (fun t => q.operatorValue Wick.jwSys (normalProd id Wick.jwSys.op) t)).sum)).sum =
        ((1 : ℚ) / 2) • (Wick.jwOps.map (Wick.jwSys.opValue id 2)).prod := by
  have h : ((Wick.contract exSR {} ⟨1, 2⟩ Wick.jwOps 0 4).bind (fun e => e.toManybody exSR ['r'])).toOption.map (fun m => (m.flatMap Prod.snd).length) = some 4 := by decide +kernel
  cases hc : Wick.contract exSR {} ⟨1, 2⟩ Wick.jwOps 0 4 with
  | error e => rw [hc] at h; cases h
  | ok e =>
    obtain ⟨m, hm, hv⟩ := C62_equations_of_product_partial (by decide) Wick.jwOps_valid (Wick.noTriples_of_two Wick.jwOps_two) (by constructor <;> decide) hc
      (by decide) (by decide +kernel) Wick.jw_anti Wick.jw_car Wick.jw_vacuum ['r']
    refine ⟨e, m, rfl, hm, ?_, ?_⟩
    · rw [hc] at h
      change (e.toManybody exSR ['r']).toOption.map _ = _ at h
      rw [hm] at h
      simpa [Except.toOption] using h
    · rw [hv]
      norm_num [toRat]
      rfl
end Wicked
