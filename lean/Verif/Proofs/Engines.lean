import Verif.Spec.Engines
import Verif.Proofs.Projection
import Verif.Props.ExprProduct
import Verif.Props.CoupledCluster
/-! Values of operators written out (C89) -/
namespace Wicked
open CppLt CppEq Rational Lin STerm Wick
section
variable {Ω R B : Type} [Inhabited Ω] [DecidableEq Ω] [CommRing R] [Ring B] [Algebra R B]

omit [Inhabited Ω] [DecidableEq Ω] in
theorem normalSign_unit (hole : Ω → Bool) (l : List (SQType × Ω)) : normalSign hole l = 1 ∨ normalSign hole l = -1 := by
  induction l with
  | nil => left; rfl
  | cons n l ih =>
    rw [normalSign]
    have h4 := neg_one_pow_eq_or Int (l.countP (fun n => !kills hole n))
    rcases ih with h3 | h3 <;> rw [h3] <;> split <;> first | (rcases h4 with h4 | h4 <;> rw [h4] <;> simp) | simp

omit [Inhabited Ω] [DecidableEq Ω] in
/-- operators that anticommute may be written in any order -/
theorem normalProd_plain {op : SQType → Ω → B} {hole : Ω → Bool} {l : List (SQType × Ω)}
    (h : l.Pairwise (fun m n => kills hole m = true → kills hole n = false → op m.1 m.2 * op n.1 n.2 = -(op n.1 n.2 * op m.1 m.2))) :
    normalProd hole op l = (l.map (fun m => op m.1 m.2)).prod := by
  induction l with
  | nil => simp [normalProd, normalSign]
  | cons m l ih =>
    rw [List.pairwise_cons] at h
    have ih' := ih h.2
    rw [List.map_cons, List.prod_cons, ← ih']
    unfold normalProd
    rw [normalSign]
    cases hm : kills hole m with
    | false =>
      simp only [List.filter_cons, hm, Bool.not_false, if_true, Bool.false_eq_true, if_false, List.map_cons, List.prod_cons, one_mul]
      rw [mul_assoc, ← mul_assoc _ (op m.1 m.2), (Int.cast_commute (normalSign hole l) (op m.1 m.2)).eq, mul_assoc]
    | true =>
      simp only [List.filter_cons, hm, Bool.not_true, if_true, Bool.false_eq_true, if_false, List.map_cons, List.prod_cons]
      have hmove : ∀ k : List (SQType × Ω), (∀ n ∈ k, n ∈ l ∧ kills hole n = false) →
          (k.map (fun n => op n.1 n.2)).prod * op m.1 m.2 = (((-1) ^ k.length : Int) : B) * (op m.1 m.2 * (k.map (fun n => op n.1 n.2)).prod) := by
        intro k
        induction k with
        | nil => simp
        | cons n k ihk =>
          intro hk
          rw [List.map_cons, List.prod_cons, mul_assoc, ihk (fun x hx => hk x (by simp [hx])), List.length_cons, pow_succ']
          have hn := h.1 n (hk n (by simp)).1 hm (hk n (by simp)).2
          rw [← mul_assoc (op m.1 m.2), hn]
          push_cast
          rw [(((Commute.refl (-1 : B)).pow_left k.length).eq |> fun _ => rfl : (-1 : B) ^ k.length = (-1) ^ k.length)]
          rcases neg_one_pow_eq_or B k.length with h1 | h1 <;> rw [h1] <;> simp [mul_assoc]
      have hc : l.countP (fun n => !kills hole n) = (l.filter (fun n => !kills hole n)).length := List.countP_eq_length_filter
      rw [hc, ← mul_assoc (List.map _ (List.filter (fun n => !kills hole n) l)).prod, hmove _ (by
        intro n hn
        rw [List.mem_filter] at hn
        exact ⟨hn.1, by simpa using hn.2⟩)]
      generalize (l.filter (fun n => !kills hole n)).length = k
      have hs := normalSign_unit hole l
      rcases neg_one_pow_eq_or Int k with h1 | h1 <;> rw [h1] <;> rcases hs with h2 | h2 <;> rw [h2] <;> simp [mul_assoc]

omit [Inhabited Ω] [DecidableEq Ω] in
/-- a tensor element times the operators of one level does not depend on the order of the indices -/
theorem antisym_perm {op : Ω → B} (hop : ∀ x y, op x * op y = -(op y * op x)) {T : List Ω → R}
    (hT : ∀ pre a b post, T (pre ++ a :: b :: post) = - T (pre ++ b :: a :: post)) {l l' : List Ω} (h : l.Perm l') (X Y : B) :
    T l • (X * (l.map op).prod * Y) = T l' • (X * (l'.map op).prod * Y) := by
  have key : ∀ pre : List Ω, T (pre ++ l) • (X * ((pre ++ l).map op).prod * Y) = T (pre ++ l') • (X * ((pre ++ l').map op).prod * Y) := by
    induction h with
    | nil => intro pre; rfl
    | cons a _ ih => intro pre; simpa using ih (pre ++ [a])
    | swap a b l =>
      intro pre
      rw [hT, neg_smul, ← smul_neg]
      congr 1
      simp only [List.map_append, List.map_cons, List.prod_append, List.prod_cons]
      rw [← mul_assoc (op b), hop b a]
      simp [mul_assoc]
    | trans _ _ ih1 ih2 => intro pre; rw [ih1, ih2]
  simpa using key []

theorem exists_perm_map {α β : Type} {f : α → β} {l : List α} {m : List β} (h : (l.map f).Perm m) : ∃ l' : List α, l'.Perm l ∧ l'.map f = m := by
  have : Relation.Comp (List.Forall₂ (fun a b => f a = b)) List.Perm l m := ⟨l.map f, by
    rw [List.forall₂_map_right_iff]; exact List.forall₂_same.2 (fun _ _ => rfl), h⟩
  rw [List.forall₂_comp_perm_eq_perm_comp_forall₂] at this
  obtain ⟨l', h1, h2⟩ := this
  refine ⟨l', h1.symm, ?_⟩
  clear h1 h
  induction h2 with
  | nil => rfl
  | cons h _ ih => rw [List.map_cons, h, ih]

/-- a list of spaces is given by how often each space occurs -/
theorem perm_spaces {ns : Nat} {C : List Index} (hs : ∀ i ∈ C, 0 ≤ i.space ∧ i.space < (ns : Int)) (n : Nat → Nat) (hn : ∀ s : Nat, s < ns → C.countP (fun i => decide (i.space = (s : Int))) = n s) :
    (C.map Index.space).Perm ((List.range ns).flatMap (fun s => List.replicate (n s) (s : Int))) := by
  rw [List.perm_iff_count]
  intro a
  rw [List.count_flatMap]
  have h1 : (C.map Index.space).count a = C.countP (fun i => decide (i.space = a)) := by
    rw [List.count, List.countP_map]; rfl
  rw [h1]
  have h2 : ((List.range ns).map (List.count a ∘ fun s : Nat => List.replicate (n s) (s : Int))) = (List.range ns).map (fun s : Nat => if (s : Int) = a then n s else 0) := by
    apply List.map_congr_left
    intro s _
    simp [List.count_replicate]
  rw [h2]
  by_cases ha : 0 ≤ a ∧ a < (ns : Int)
  · obtain ⟨k, rfl⟩ := Int.eq_ofNat_of_zero_le ha.1
    have hk : k < ns := by omega
    rw [hn k hk]
    have := Finset.sum_ite_eq' (Finset.range ns) k n
    rw [if_pos (Finset.mem_range.2 hk)] at this
    rw [← this]
    rw [Finset.sum_range]
    rw [← List.sum_ofFn, List.ofFn_eq_map, ← List.map_coe_finRange_eq_range, List.map_map]
    congr 1
    apply List.map_congr_left
    intro x _
    simp
  · have : C.countP (fun i => decide (i.space = a)) = 0 := by
      rw [List.countP_eq_zero]
      intro i hi
      have := hs i hi
      simp only [decide_eq_true_eq]
      rintro rfl
      exact ha this
    rw [this]
    symm
    rw [List.sum_eq_zero]
    intro x hx
    obtain ⟨s, hs', rfl⟩ := List.mem_map.1 hx
    rw [List.mem_range] at hs'
    rw [if_neg]
    rintro rfl
    omega

omit [Inhabited Ω] [DecidableEq Ω] in
theorem creSlots_spaces (ns k : Nat) (p : Operator) : (creSlots ns k p).map (fun y => (y.space : Int)) = (List.range ns).flatMap (fun s => List.replicate (p.gm.cre s).toNat (s : Int)) := by
  unfold creSlots
  rw [List.map_flatMap]
  congr 1
  funext s
  rw [List.map_map, List.eq_replicate_iff]
  constructor
  · simp
  · intro b hb
    obtain ⟨_, _, rfl⟩ := List.mem_map.1 hb
    rfl

theorem annSlots_spaces (ns k : Nat) (p : Operator) : (annSlots ns k p).map (fun y => (y.space : Int)) = (List.range ns).flatMap (fun s => List.replicate (p.gm.ann s).toNat (s : Int)) := by
  unfold annSlots
  rw [List.map_flatMap]
  congr 1
  funext s
  rw [List.map_map, List.eq_replicate_iff]
  constructor
  · simp
  · intro b hb
    obtain ⟨_, _, rfl⟩ := List.mem_map.1 hb
    rfl

variable [Algebra ℚ B]

theorem weight_ne_zero (ns : Nat) (p : Operator) : p.weight ns ≠ 0 := by
  unfold Operator.weight
  apply mul_ne_zero <;> apply List.prod_ne_zero <;> intro h <;> obtain ⟨s, _, h⟩ := List.mem_map.1 h <;> exact Nat.factorial_ne_zero _ (by exact_mod_cast h)

/-- the value of an operator written out -/
theorem value_spelled {o : OSI} {v : OrbSystem Ω R B} (hanti : v.Antisymmetric) (hcar : IsCAR v.op) {hole : Ω → Bool} (hvac : v.Vacuum o hole)
    {p : Operator} (hp : NoSelfContraction o p) {t : STerm} (h : Spells o.spaces.length p t) : v.value t = p.weight o.spaces.length • v.opValue hole o.spaces.length p := by
  obtain ⟨C, A, sym, conj, rfl, hnd, hsp, hcount⟩ := h
  set ns := o.spaces.length with hns
  unfold OrbSystem.opValue
  rw [smul_smul]
  have hw : p.weight ns * (1 / (((List.range ns).map (fun s => ((p.gm.cre s).toNat.factorial : ℚ))).prod * ((List.range ns).map (fun s => ((p.gm.ann s).toNat.factorial : ℚ))).prod)) = 1 :=
    mul_one_div_cancel (weight_ne_zero ns p)
  rw [hw, one_smul]
  set nc := (creSlots ns 0 p).length with hnc
  let F : List Ω → B := fun w => v.T p.label (w.take nc) (w.drop nc) • (((w.take nc).map (v.op .creation)).prod * ((w.drop nc).reverse.map (v.op .annihilation)).prod)
  -- the operator
  have hR : sumOver (opSlots ns 0 p).toFinset (fun y => v.dom y.space) (fun x => v.T p.label ((creSlots ns 0 p).map x) ((annSlots ns 0 p).map x) •
      normalProd hole v.op ((opSlots ns 0 p).map (fun y => (y.type, x y)))) =
      sumTuples ((creSlots ns 0 p ++ annSlots ns 0 p).map (fun y => v.dom y.space)) F := by
    have hfin : (opSlots ns 0 p).toFinset = (creSlots ns 0 p ++ annSlots ns 0 p).toFinset := by
      ext y; simp [opSlots]
    rw [hfin, ← sumOver_tuples _ ?_ (fun y : Slot => v.dom y.space) F]
    · apply sumOver_congr
      intro x hx
      simp only [F]
      rw [List.map_append, List.take_left' (by rw [List.length_map]), List.drop_left' (by rw [List.length_map])]
      congr 1
      rw [normalProd_plain]
      · unfold opSlots
        simp only [List.map_append, List.prod_append, List.map_map, List.map_reverse]
        congr 1
        · congr 1
          apply List.map_congr_left
          intro y hy
          have := (mem_creSlots.1 hy).2.2.1
          simp [Slot.type, this]
        · congr 2
          apply List.map_congr_left
          intro y hy
          have := (mem_annSlots.1 hy).2.2.1
          simp [Slot.type, this]
      · have hcc : ∀ y ∈ creSlots ns 0 p, y.type = .creation := by
          intro y hy
          simp [Slot.type, (mem_creSlots.1 hy).2.2.1]
        have haa : ∀ y ∈ annSlots ns 0 p, y.type = .annihilation := by
          intro y hy
          simp [Slot.type, (mem_annSlots.1 hy).2.2.1]
        unfold opSlots
        rw [List.map_append, List.pairwise_append]
        refine ⟨?_, ?_, ?_⟩
        · rw [List.pairwise_map]
          refine List.Pairwise.imp_of_mem (R := fun _ _ => True) ?_ (List.pairwise_of_forall (fun _ _ => trivial))
          intro y z hy hz _ _ _
          simp only [hcc y hy, hcc z hz]
          exact hcar.same _ _ _
        · rw [List.pairwise_map]
          refine List.Pairwise.imp_of_mem (R := fun _ _ => True) ?_ (List.pairwise_of_forall (fun _ _ => trivial))
          intro y z hy hz _ _ _
          simp only [haa y (List.mem_reverse.1 hy), haa z (List.mem_reverse.1 hz)]
          exact hcar.same _ _ _
        · intro m hm n hn hk hk'
          obtain ⟨y, hyc, rfl⟩ := List.mem_map.1 hm
          obtain ⟨z, hz, rfl⟩ := List.mem_map.1 hn
          have hza := List.mem_reverse.1 hz
          simp only [hcc y hyc, haa z hza, kills] at hk hk' ⊢
          have hyd := hx y (by simp [hyc])
          have hzd := hx z (by simp [hza])
          have hne : x z ≠ x y := by
            intro he
            have hys := mem_creSlots.1 hyc
            have hzs := mem_annSlots.1 hza
            have hsame : y.space = z.space := by
              by_contra hne
              exact hvac.disjoint y.space z.space hys.2.1 hzs.2.1 hne _ hyd (he ▸ hzd)
            have hocc : o.spaceType y.space = .ok .occupied := by
              rcases hvac.kind y.space hys.2.1 with ⟨h1, _⟩ | ⟨_, h1⟩
              · exact h1
              · rw [h1 _ hyd] at hk; cases hk
            rcases hp y.space hys.2.1 hocc with h0 | h0
            · have := hys.2.2.2; omega
            · have := hzs.2.2.2; rw [← hsame] at this; omega
          have := hcar.mixed (x z) (x y)
          rw [if_neg hne] at this
          rw [eq_neg_iff_add_eq_zero, add_comm]
          exact this
    · have := nodup_opSlots ns 0 p
      unfold opSlots at this
      rw [List.nodup_append] at this ⊢
      refine ⟨this.1, by simpa using this.2.1, fun a ha b hb => this.2.2 a ha b (List.mem_reverse.2 hb)⟩
  rw [hR]
  -- the term written out
  obtain ⟨C', hC', hCs⟩ := exists_perm_map (perm_spaces (C := C) (fun i hi => hsp i (List.mem_append_left _ hi)) (fun s => (p.gm.cre s).toNat) (fun s hs => by have := (hcount s hs).1; omega))
  obtain ⟨A', hA', hAs⟩ := exists_perm_map (perm_spaces (C := A) (fun i hi => hsp i (List.mem_append_right _ hi)) (fun s => (p.gm.ann s).toNat) (fun s hs => by have := (hcount s hs).2; omega))
  rw [← creSlots_spaces ns 0] at hCs
  rw [← annSlots_spaces ns 0] at hAs
  have hlen : C'.length = nc := by
    have := congrArg List.length hCs
    simpa using this
  have hdoms : (creSlots ns 0 p ++ annSlots ns 0 p).map (fun y => v.dom y.space) = (C' ++ A').map (fun i => v.dom i.space) := by
    rw [List.map_append, List.map_append]
    have e1 : (creSlots ns 0 p).map (fun y => v.dom y.space) = ((creSlots ns 0 p).map (fun y => (y.space : Int))).map v.dom := by rw [List.map_map]; rfl
    have e2 : (annSlots ns 0 p).map (fun y => v.dom y.space) = ((annSlots ns 0 p).map (fun y => (y.space : Int))).map v.dom := by rw [List.map_map]; rfl
    rw [e1, e2, ← hCs, ← hAs, List.map_map, List.map_map]
    rfl
  have hnd' : (C' ++ A').Nodup := ((hC'.append hA').nodup_iff).2 hnd
  rw [hdoms, ← sumOver_tuples _ hnd' (fun i : Index => v.dom i.space) F, value_sumOver]
  have hfin : (STerm.allIdx ⟨false, C.map (fun i => ⟨.creation, i⟩) ++ A.map (fun i => ⟨.annihilation, i⟩), [⟨p.label, C, A.reverse, sym, conj⟩]⟩).toFinset = (C' ++ A').toFinset := by
    ext i
    simp only [STerm.allIdx, List.mem_toFinset, List.mem_append, List.map_append, List.map_map, List.mem_map, List.mem_flatMap, List.mem_singleton, exists_eq_left, List.mem_reverse, hC'.mem_iff, hA'.mem_iff, Function.comp]
    constructor
    · rintro ((⟨a, ha, rfl⟩ | ⟨a, ha, rfl⟩) | h)
      · exact Or.inl ha
      · exact Or.inr ha
      · exact h
    · intro h; exact Or.inr h
  rw [hfin]
  apply sumOver_congr
  intro σ _
  simp only [F, OrbSystem.inst]
  rw [show (C' ++ A').map σ = C'.map σ ++ A'.map σ from List.map_append .., List.take_left' (by rw [List.length_map, hlen]), List.drop_left' (by rw [List.length_map, hlen])]
  simp only [List.map_cons, List.map_nil, List.prod_cons, List.prod_nil, mul_one, List.map_append, List.prod_append, List.map_map]
  have k1 := antisym_perm (R := R) (op := v.op .creation) (hcar.same .creation) (T := fun l => v.T p.label l (A.reverse.map σ)) (fun pre a b post => (hanti p.label).1 pre a b post _) (hC'.map σ).symm 1 ((A.map σ).map (v.op .annihilation)).prod
  have k2 := antisym_perm (R := R) (op := v.op .annihilation) (hcar.same .annihilation) (T := fun l => v.T p.label (C'.map σ) l.reverse) (fun pre a b post => by
    simp only [List.reverse_append, List.reverse_cons, List.append_assoc, List.singleton_append]
    exact (hanti p.label).2 _ _ _ _ _) (l := A.map σ) (l' := (A'.map σ).reverse) ((hA'.map σ).symm.trans (List.reverse_perm _).symm) ((C'.map σ).map (v.op .creation)).prod 1
  simp only [one_mul, mul_one, List.reverse_reverse, ← List.map_reverse, List.map_map] at k1 k2
  rw [List.map_reverse] at k1
  simp only [Function.comp_def, List.map_reverse] at k1 k2 ⊢
  rw [k1, k2, List.map_map]
  rfl

end
end Wicked
