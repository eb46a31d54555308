import Verif.Spec.OpAlg
import Verif.Props.Algebra
import Verif.Proofs.GM
import Mathlib.Algebra.BigOperators.Group.Finset.Basic
import Mathlib.Algebra.BigOperators.Intervals
import Mathlib.Data.Nat.Factorial.Basic
/-! # C21-C24: products, adjoints, commutators and the BCH series of operator expressions -/
namespace Wicked
open CppLt CppEq Rational Lin

/-! ## C21 -/

/-- **C21**: the coefficient of a word `w` in `A @ B` is the sum over all ways to cut `w` in two of
the products of the coefficients of the pieces. -/
theorem C21_product_coefficient {A B : OpExpr} (hA : Built A) (hB : Built B) (w : OperatorProduct) :
    coef (OpExpr.mul A B) w =
      ∑ i ∈ Finset.range (w.length + 1), coef A (w.take i) * coef B (w.drop i) := by
  classical
  have wA := (built_wf hA).toOk
  have wB := (built_wf hB).toOk
  have wAB := (built_wf (Built.mul OperatorProduct.mul hA hB)).toOk
  have : coef (OpExpr.mul A B) w = (opVal (OpExpr.mul A B)).coeff (FreeMonoid.ofList w) :=
    (coeff_opVal wAB w).symm
  rw [this, opVal_mul wA wB]
  rw [MonoidAlgebra.coeff_mul_antidiag _ _ _ ((Finset.range (w.length + 1)).image
    (fun i => (FreeMonoid.ofList (w.take i), FreeMonoid.ofList (w.drop i))))]
  · rw [Finset.sum_image]
    · apply Finset.sum_congr rfl
      intro i _
      rw [coeff_opVal wA, coeff_opVal wB]
    · intro i hi j hj h
      simp only [Finset.coe_range, Set.mem_Iio] at hi hj
      simp only [Prod.mk.injEq] at h
      have := congrArg List.length (FreeMonoid.ofList.injective h.1)
      simp only [List.length_take] at this
      omega
  · intro p
    simp only [Finset.mem_image, Finset.mem_range]
    constructor
    · rintro ⟨i, _, rfl⟩
      show FreeMonoid.ofList (w.take i ++ w.drop i) = _
      rw [List.take_append_drop]
    · intro h
      rcases p with ⟨u, v⟩
      have h' : FreeMonoid.toList u ++ FreeMonoid.toList v = w := by
        have := congrArg FreeMonoid.toList h
        simpa using this
      refine ⟨(FreeMonoid.toList u).length, ?_, ?_⟩
      · rw [← h']; simp
      · rw [← h', List.take_left, List.drop_left]; simp

/-- **C21**: `@` is associative and bilinear up to `==`, and scalars pull out. -/
theorem C21_product_laws {A B C : OpExpr} (hA : Built A) (hB : Built B) (hC : Built C) :
    isEqual (OpExpr.mul (OpExpr.mul A B) C) (OpExpr.mul A (OpExpr.mul B C)) = true ∧
    isEqual (OpExpr.mul A (OpExpr.plus B C)) (OpExpr.plus (OpExpr.mul A B) (OpExpr.mul A C)) = true ∧
    isEqual (OpExpr.mul (OpExpr.plus A B) C) (OpExpr.plus (OpExpr.mul A C) (OpExpr.mul B C)) = true ∧
    (∀ n d : Int, n ≠ 0 → d ≠ 0 →
      isEqual (OpExpr.mul (smul A (Rational.mk2 n d)) B) (smul (OpExpr.mul A B) (Rational.mk2 n d)) = true ∧
      isEqual (OpExpr.mul A (smul B (Rational.mk2 n d))) (smul (OpExpr.mul A B) (Rational.mk2 n d)) = true) := by
  have bm : ∀ {X Y : OpExpr}, Built X → Built Y → Built (OpExpr.mul X Y) := fun h h' => .mul _ h h'
  have bp : ∀ {X Y : OpExpr}, Built X → Built Y → Built (OpExpr.plus X Y) := fun h h' => .plus h h'
  have ok : ∀ {X : OpExpr}, Built X → Ok X := fun h => (built_wf h).toOk
  refine ⟨?_, ?_, ?_, ?_⟩
  · rw [isEqual_opVal (built_wf (bm (bm hA hB) hC)) (built_wf (bm hA (bm hB hC))),
      opVal_mul (ok (bm hA hB)) (ok hC), opVal_mul (ok hA) (ok hB), opVal_mul (ok hA) (ok (bm hB hC)),
      opVal_mul (ok hB) (ok hC), mul_assoc]
  · rw [isEqual_opVal (built_wf (bm hA (bp hB hC))) (built_wf (bp (bm hA hB) (bm hA hC))),
      opVal_mul (ok hA) (ok (bp hB hC)), opVal_plus (ok hB) (ok hC),
      opVal_plus (ok (bm hA hB)) (ok (bm hA hC)), opVal_mul (ok hA) (ok hB), opVal_mul (ok hA) (ok hC), mul_add]
  · rw [isEqual_opVal (built_wf (bm (bp hA hB) hC)) (built_wf (bp (bm hA hC) (bm hB hC))),
      opVal_mul (ok (bp hA hB)) (ok hC), opVal_plus (ok hA) (ok hB),
      opVal_plus (ok (bm hA hC)) (ok (bm hB hC)), opVal_mul (ok hA) (ok hC), opVal_mul (ok hB) (ok hC), add_mul]
  · intro n d hn hd
    have bs : ∀ {X : OpExpr}, Built X → Built (smul X (Rational.mk2 n d)) := fun h => .smul n d hn hd h
    constructor
    · rw [isEqual_opVal (built_wf (bm (bs hA) hB)) (built_wf (bs (bm hA hB))),
        opVal_mul (ok (bs hA)) (ok hB), opVal_smul, opVal_smul, opVal_mul (ok hA) (ok hB), smul_mul_assoc]
    · rw [isEqual_opVal (built_wf (bm hA (bs hB))) (built_wf (bs (bm hA hB))),
        opVal_mul (ok hA) (ok (bs hB)), opVal_smul, opVal_smul, opVal_mul (ok hA) (ok hB), mul_smul_comm]

/-- non-vacuity: a product with merging terms -/
example : Built exExpr ∧ OpExpr.mul exExpr exExpr ≠ [] ∧ (OpExpr.mul exExpr exExpr).length = 4 := by
  exact ⟨exExpr_built, by decide, by decide⟩

/-! ## C22 -/

theorem gm_adjoint_get (ns : Nat) (g : GraphMatrix) (s : Nat) (hs : s < ns) :
    (g.adjoint ns).get s = ((g.get s).2, (g.get s).1) := by
  unfold GraphMatrix.adjoint
  rw [gm_get_tab]
  by_cases h : s < 8
  · simp [h, hs, GraphMatrix.cre, GraphMatrix.ann]
  · simp [h, GraphMatrix.get]

theorem gm_adjoint_adjoint (ns : Nat) (g : GraphMatrix) (h : ∀ s, ns ≤ s → g.get s = (0, 0)) :
    (g.adjoint ns).adjoint ns = g := by
  apply gm_ext
  intro s hs
  by_cases hn : s < ns
  · rw [gm_adjoint_get ns _ s hn, gm_adjoint_get ns _ s hn]
  · rw [h s (by omega)]
    unfold GraphMatrix.adjoint; rw [gm_get_tab]; simp [hn]

theorem op_adjoint_adjoint (ns : Nat) (o : Operator) (h : ∀ s, ns ≤ s → o.gm.get s = (0, 0)) :
    (o.adjoint ns).adjoint ns = o := by
  rcases o with ⟨l, g⟩
  simp only [Operator.adjoint, Operator.mk.injEq, true_and]
  exact gm_adjoint_adjoint ns g h

theorem prod_adjoint_adjoint (ns : Nat) (w : OperatorProduct) (h : ∀ o ∈ w, ∀ s, ns ≤ s → o.gm.get s = (0, 0)) :
    OperatorProduct.adjoint ns (OperatorProduct.adjoint ns w) = w := by
  unfold OperatorProduct.adjoint
  rw [List.map_reverse, List.reverse_reverse, List.map_map]
  conv_rhs => rw [← List.map_id w]
  apply List.map_congr_left
  intro o ho
  exact op_adjoint_adjoint ns o (h o ho)

theorem prod_adjoint_append (ns : Nat) (u v : OperatorProduct) :
    OperatorProduct.adjoint ns (u ++ v) = OperatorProduct.adjoint ns v ++ OperatorProduct.adjoint ns u := by
  simp [OperatorProduct.adjoint]

/-- value of the adjoint -/
noncomputable def adjVal (ns : Nat) (e : OpExpr) : OpAlg := Lin.eval (fun w => wordVal (OperatorProduct.adjoint ns w)) e

theorem adjWord_congr (ns : Nat) (a b : OperatorProduct) (h : eqv a b = true) :
    wordVal (OperatorProduct.adjoint ns a) = wordVal (OperatorProduct.adjoint ns b) := by
  rw [eqv_eq] at h; rw [h]

theorem opVal_adjoint (ns : Nat) {e : OpExpr} (h : Ok e) : opVal (OpExpr.adjoint ns e) = adjVal ns e := by
  refine (eval_fold_add wordVal wordVal_congr e (fun p => OperatorProduct.adjoint ns p.1) Prod.snd (fun p hp => h.canon p hp) [] ok_nil).trans ?_
  rw [eval_nil, zero_add]; rfl

theorem adjVal_plus (ns : Nat) {e f : OpExpr} (h : Ok e) (h' : Ok f) :
    adjVal ns (OpExpr.plus e f) = adjVal ns e + adjVal ns f :=
  eval_fold_add _ (adjWord_congr ns) f Prod.fst Prod.snd (fun p hp => h'.canon p hp) e h

theorem adjVal_mul (ns : Nat) {e f : OpExpr} (h : Ok e) (h' : Ok f) :
    adjVal ns (OpExpr.mul e f) = adjVal ns f * adjVal ns e := by
  unfold OpExpr.mul
  rw [mul_eq_fold]
  refine (eval_fold_add _ (adjWord_congr ns) _ (fun b : (OperatorProduct × Rational) × (OperatorProduct × Rational) => OperatorProduct.mul b.1.1 b.2.1)
    (fun b => Rational.mul b.1.2 b.2.2) ?_ [] ok_nil).trans ?_
  · intro b hb
    obtain ⟨p, hp, hb⟩ := List.mem_flatMap.1 hb
    obtain ⟨q, hq, rfl⟩ := List.mem_map.1 hb
    exact canon_mul (h.canon p hp) (h'.canon q hq)
  · rw [eval_nil, zero_add, sum_flatMap']
    simp only [List.map_map, Function.comp_def, toRat_mul, OperatorProduct.mul, prod_adjoint_append, wordVal_mul]
    unfold adjVal eval
    rw [← List.sum_map_mul_left]
    congr 1
    apply List.map_congr_left
    intro p _
    rw [← List.sum_map_mul_right]
    congr 1
    apply List.map_congr_left
    intro q _
    rw [smul_mul_smul_comm, mul_comm (toRat q.2)]

/-- **C22**: the adjoint of operator expressions is additive and reverses products, up to `==`;
it is an involution on expressions over the registered spaces; the adjoint of one operator keeps
the label and exchanges creation and annihilation counts in every registered space. -/
theorem C22_adjoint (ns : Nat) {A B : OpExpr} (hA : Built A) (hB : Built B) :
    (InSpaces ns A → isEqual (OpExpr.adjoint ns (OpExpr.adjoint ns A)) A = true) ∧
    isEqual (OpExpr.adjoint ns (OpExpr.plus A B)) (OpExpr.plus (OpExpr.adjoint ns A) (OpExpr.adjoint ns B)) = true ∧
    isEqual (OpExpr.adjoint ns (OpExpr.mul A B)) (OpExpr.mul (OpExpr.adjoint ns B) (OpExpr.adjoint ns A)) = true ∧
    (∀ o : Operator, (o.adjoint ns).label = o.label ∧ ∀ s < ns,
      (o.adjoint ns).gm.cre s = o.gm.ann s ∧ (o.adjoint ns).gm.ann s = o.gm.cre s) := by
  have ba : ∀ {X : OpExpr}, Built X → Built (OpExpr.adjoint ns X) := fun h => .mapKeys _ h
  have bm : ∀ {X Y : OpExpr}, Built X → Built Y → Built (OpExpr.mul X Y) := fun h h' => .mul _ h h'
  have bp : ∀ {X Y : OpExpr}, Built X → Built Y → Built (OpExpr.plus X Y) := fun h h' => .plus h h'
  have ok : ∀ {X : OpExpr}, Built X → Ok X := fun h => (built_wf h).toOk
  refine ⟨?_, ?_, ?_, ?_⟩
  · intro hs
    rw [isEqual_opVal (built_wf (ba (ba hA))) (built_wf hA), opVal_adjoint ns (ok (ba hA))]
    have : adjVal ns (OpExpr.adjoint ns A) = Lin.eval (fun w => wordVal (OperatorProduct.adjoint ns (OperatorProduct.adjoint ns w))) A := by
      refine (eval_fold_add _ (adjWord_congr ns) A (fun p => OperatorProduct.adjoint ns p.1) Prod.snd (fun p hp => (ok hA).canon p hp) [] ok_nil).trans ?_
      rw [eval_nil, zero_add]; rfl
    rw [this]
    unfold opVal eval
    congr 1; apply List.map_congr_left; intro p hp
    beta_reduce
    rw [prod_adjoint_adjoint ns p.1 (hs p hp)]
  · rw [isEqual_opVal (built_wf (ba (bp hA hB))) (built_wf (bp (ba hA) (ba hB))), opVal_adjoint ns (ok (bp hA hB)),
      opVal_plus (ok (ba hA)) (ok (ba hB)), opVal_adjoint ns (ok hA), opVal_adjoint ns (ok hB), adjVal_plus ns (ok hA) (ok hB)]
  · rw [isEqual_opVal (built_wf (ba (bm hA hB))) (built_wf (bm (ba hB) (ba hA))), opVal_adjoint ns (ok (bm hA hB)),
      opVal_mul (ok (ba hB)) (ok (ba hA)), opVal_adjoint ns (ok hA), opVal_adjoint ns (ok hB), adjVal_mul ns (ok hA) (ok hB)]
  · intro o
    refine ⟨rfl, fun s hs => ?_⟩
    have := gm_adjoint_get ns o.gm s hs
    simp [Operator.adjoint, GraphMatrix.cre, GraphMatrix.ann, this]

/-- non-vacuity: `exExpr` lives in the first two spaces, and is not self-adjoint -/
example : InSpaces 2 exExpr ∧ isEqual (OpExpr.adjoint 2 exExpr) exExpr = false := by
  refine ⟨?_, by decide⟩
  have h : ∀ p ∈ exExpr, ∀ o ∈ p.1, ∀ s < 8, 2 ≤ s → o.gm.get s = (0, 0) := by decide
  intro p hp o ho s hs
  by_cases h8 : s < 8
  · exact h p hp o ho s h8 hs
  · simp [GraphMatrix.get, h8]

/-! ## C23 -/

theorem opVal_commutator {A B : OpExpr} (hA : Ok A) (hB : Ok B) :
    opVal (OpExpr.commutator A B) = opVal A * opVal B - opVal B * opVal A := by
  unfold OpExpr.commutator
  rw [opVal_minus (e := OpExpr.mul A B) (f := OpExpr.mul B A) (mul_spec _ hA hB).1.toOk (mul_spec _ hB hA).1.toOk, opVal_mul hA hB, opVal_mul hB hA]

theorem built_commutator {A B : OpExpr} (hA : Built A) (hB : Built B) : Built (OpExpr.commutator A B) :=
  .minus (.mul _ hA hB) (.mul _ hB hA)

/-- **C23**: `commutator(A,B)` is `A@B - B@A`; it is empty for `A` with itself, antisymmetric,
bilinear and satisfies the Jacobi identity, all up to `==` of expressions. -/
theorem C23_commutator {A B C : OpExpr} (hA : Built A) (hB : Built B) (hC : Built C) :
    OpExpr.commutator A B = OpExpr.minus (OpExpr.mul A B) (OpExpr.mul B A) ∧
    OpExpr.commutator A A = [] ∧
    isEqual (OpExpr.commutator A B) (Lin.neg (OpExpr.commutator B A)) = true ∧
    isEqual (OpExpr.commutator (OpExpr.plus A B) C)
      (OpExpr.plus (OpExpr.commutator A C) (OpExpr.commutator B C)) = true ∧
    isEqual (OpExpr.commutator A (OpExpr.plus B C))
      (OpExpr.plus (OpExpr.commutator A B) (OpExpr.commutator A C)) = true ∧
    OpExpr.plus (OpExpr.plus (OpExpr.commutator A (OpExpr.commutator B C))
      (OpExpr.commutator B (OpExpr.commutator C A))) (OpExpr.commutator C (OpExpr.commutator A B)) = [] := by
  have bc : ∀ {X Y : OpExpr}, Built X → Built Y → Built (OpExpr.commutator X Y) := built_commutator
  have bp : ∀ {X Y : OpExpr}, Built X → Built Y → Built (OpExpr.plus X Y) := fun h h' => .plus h h'
  have ok : ∀ {X : OpExpr}, Built X → Ok X := fun h => (built_wf h).toOk
  have vc : ∀ {X Y : OpExpr}, Built X → Built Y →
      opVal (OpExpr.commutator X Y) = opVal X * opVal Y - opVal Y * opVal X :=
    fun h h' => opVal_commutator (ok h) (ok h')
  have vp : ∀ {X Y : OpExpr}, Built X → Built Y → opVal (OpExpr.plus X Y) = opVal X + opVal Y :=
    fun h h' => opVal_plus (ok h) (ok h')
  have empty : ∀ {X : OpExpr}, Built X → opVal X = 0 → X = [] := by
    intro X hX h0
    have := (isEqual_opVal (built_wf hX) wf_nil).2 (h0.trans opVal_nil.symm)
    cases X with
    | nil => rfl
    | cons p X => cases this
  refine ⟨rfl, ?_, ?_, ?_, ?_, ?_⟩
  · exact empty (bc hA hA) (by rw [vc hA hA, sub_self])
  · rw [isEqual_opVal (built_wf (bc hA hB)) (built_wf (.neg (bc hB hA))), opVal_neg (ok (bc hB hA)), vc hA hB, vc hB hA]
    abel
  · rw [isEqual_opVal (built_wf (bc (bp hA hB) hC)) (built_wf (bp (bc hA hC) (bc hB hC))), vc (bp hA hB) hC,
      vp hA hB, vp (bc hA hC) (bc hB hC), vc hA hC, vc hB hC]
    noncomm_ring
  · rw [isEqual_opVal (built_wf (bc hA (bp hB hC))) (built_wf (bp (bc hA hB) (bc hA hC))), vc hA (bp hB hC),
      vp hB hC, vp (bc hA hB) (bc hA hC), vc hA hC, vc hA hB]
    noncomm_ring
  · apply empty (bp (bp (bc hA (bc hB hC)) (bc hB (bc hC hA))) (bc hC (bc hA hB)))
    rw [vp (bp (bc hA (bc hB hC)) (bc hB (bc hC hA))) (bc hC (bc hA hB)), vp (bc hA (bc hB hC)) (bc hB (bc hC hA)),
      vc hA (bc hB hC), vc hB (bc hC hA), vc hC (bc hA hB), vc hB hC, vc hC hA, vc hA hB]
    noncomm_ring

/-- **C23**: `commutator(A₀, A₁, ..., Aₙ)` denotes `[[...[A₀,A₁],...],Aₙ]` in the free algebra. -/
theorem C23_nested {A : OpExpr} (hA : Built A) (l : List OpExpr) (hl : ∀ B ∈ l, Built B) :
    opVal (OpExpr.commutatorN (A :: l)) = l.foldl (fun x B => x * opVal B - opVal B * x) (opVal A) := by
  show opVal (l.foldl OpExpr.commutator A) = _
  induction l generalizing A with
  | nil => rfl
  | cons B l ih =>
    have hB := hl B (List.mem_cons_self ..)
    rw [List.foldl_cons, ih (built_commutator hA hB) (fun C hC => hl C (List.mem_cons_of_mem _ hC)), List.foldl_cons,
      opVal_commutator (built_wf hA).toOk (built_wf hB).toOk]

example : (OpExpr.commutatorN [exExpr, [([exOp "X" [(1, 1)]], Rational.ofInt 1)], exExpr]).length > 0 := by decide

/-! ## C24 -/

theorem bchLoop_spec {B : OpExpr} (hB : Built B) (a : OpAlg) : ∀ (n k0 : Nat) (result temp : OpExpr),
    Built result → Built temp → opVal temp = ((1 : ℚ) / k0.factorial) • nested a (opVal B) k0 →
    opVal result = ∑ k ∈ Finset.range (k0 + 1), ((1 : ℚ) / k.factorial) • nested a (opVal B) k →
    Built (OpExpr.bchLoop B k0 n result temp) ∧
    opVal (OpExpr.bchLoop B k0 n result temp) =
      ∑ k ∈ Finset.range (k0 + n + 1), ((1 : ℚ) / k.factorial) • nested a (opVal B) k
  | 0, k0, result, temp, hr, _, _, hv => ⟨hr, hv⟩
  | n + 1, k0, result, temp, hr, ht, htv, hv => by
    have hk : ((k0 + 1 : Nat) : Int) ≠ 0 := by omega
    have hcomm : Built (Lin.smul (OpExpr.commutator temp B) (Rational.mk2 1 ((k0 + 1 : Nat) : Int))) :=
      .smul 1 _ (by decide) hk (built_commutator ht hB)
    have hcv : opVal (Lin.smul (OpExpr.commutator temp B) (Rational.mk2 1 ((k0 + 1 : Nat) : Int))) =
        ((1 : ℚ) / (k0 + 1).factorial) • nested a (opVal B) (k0 + 1) := by
      rw [opVal_smul, opVal_commutator (built_wf ht).toOk (built_wf hB).toOk, htv, toRat_mk2, nested,
        smul_mul_assoc, mul_smul_comm, ← smul_sub, smul_smul]
      congr 1
      rw [Nat.factorial_succ]; push_cast
      have h1 : (k0.factorial : ℚ) ≠ 0 := by exact_mod_cast k0.factorial_ne_zero
      have h2 : ((k0 : ℚ) + 1) ≠ 0 := by exact_mod_cast Nat.succ_ne_zero k0
      field_simp
    have := bchLoop_spec hB a n (k0 + 1) _ _ (.plus hr hcomm) hcomm hcv (by
      refine (opVal_plus (built_wf hr).toOk (built_wf hcomm).toOk).trans ?_
      rw [hv, hcv, Finset.sum_range_succ _ (k0 + 1)])
    rw [show k0 + (n + 1) + 1 = k0 + 1 + n + 1 by omega]
    exact this

/-- **C24**: `bch_series(A,B,n)` denotes `Σ_{k=0}^{n} (1/k!) [[A,B],...,B]`, for every `n`, and for
`n ≤ 0` it is `== A`. -/
theorem C24_bch_series {A B : OpExpr} (hA : Built A) (hB : Built B) (n : Int) :
    opVal (OpExpr.bchSeries A B n) =
      ∑ k ∈ Finset.range (n.toNat + 1), ((1 : ℚ) / k.factorial) • nested (opVal A) (opVal B) k ∧
    (n ≤ 0 → isEqual (OpExpr.bchSeries A B n) A = true) := by
  have h0 : opVal (OpExpr.plus [] A) = opVal A := by
    rw [opVal_plus ok_nil (built_wf hA).toOk, opVal_nil, zero_add]
  have hb : Built (OpExpr.plus [] A) := .plus .empty hA
  have := bchLoop_spec hB (opVal A) n.toNat 0 (OpExpr.plus [] A) A hb hA
    (by simp [nested]) (by rw [h0]; simp [nested])
  refine ⟨?_, ?_⟩
  · have := this.2; rw [Nat.zero_add] at this; exact this
  · intro hn
    have h : n.toNat = 0 := by omega
    unfold OpExpr.bchSeries
    rw [h]
    show isEqual (OpExpr.plus [] A) A = true
    rw [isEqual_opVal (built_wf hb) (built_wf hA), h0]

example : (OpExpr.bchSeries exExpr [([exOp "X" [(1, 1)]], Rational.ofInt 1)] 3).length = 20 := by decide

end Wicked

namespace Wicked
open CppLt CppEq Rational Lin

/-! ## C59: `e.add2(e, c)` -/

theorem add2Loop_spec (c : Rational) (hc : Canon c) (h1 : 1 + toRat c ≠ 0) :
    ∀ (todo cur : OpExpr), WF todo → WF cur → (∀ p ∈ todo, coef cur p.1 = toRat p.2) →
      ∃ r, OpExpr.add2Loop c todo cur = .ok r ∧ WF r ∧ ∀ w, coef r w = coef cur w + toRat c * coef todo w
  | [], cur, _, hcur, _ => ⟨cur, rfl, hcur, fun w => by simp⟩
  | (k, v) :: todo, cur, ht, hcur, hco => by
    have hv : Canon v := ht.canon _ (List.mem_cons_self ..)
    have hv0 : toRat v ≠ 0 := ht.nonzero _ (List.mem_cons_self ..)
    have hs := List.pairwise_cons.1 ht.sorted
    have htt : WF todo := ⟨⟨hs.2, fun r hr => ht.canon r (List.mem_cons_of_mem _ hr)⟩, fun r hr => ht.nonzero r (List.mem_cons_of_mem _ hr)⟩
    have hm := canon_mul hc hv
    have hk : coef cur k = toRat v := hco _ (List.mem_cons_self ..)
    have hcur' := wf_add hcur k hm
    have hcont : Lin.contains (Lin.add cur k (Rational.mul c v)) k = true := by
      unfold Lin.contains
      by_contra hn
      have hn' : SMap.find k (Lin.add cur k (Rational.mul c v)) = none := by
        cases hf : SMap.find k (Lin.add cur k (Rational.mul c v)) with
        | none => rfl
        | some x => rw [hf] at hn; simp at hn
      have h0 : coef (Lin.add cur k (Rational.mul c v)) k = 0 := by unfold coef; rw [hn']; rfl
      rw [coef_add hcur.toOk k k hm, if_pos (eqv_refl k), hk, toRat_mul] at h0
      have : (1 + toRat c) * toRat v = 0 := by linarith
      rcases mul_eq_zero.1 this with h | h
      · exact h1 h
      · exact hv0 h
    obtain ⟨r, hr, hw, hrc⟩ := add2Loop_spec c hc h1 todo (Lin.add cur k (Rational.mul c v)) htt hcur' (by
      intro p hp
      rw [coef_add hcur.toOk k p.1 hm, hco p (List.mem_cons_of_mem _ hp)]
      have : ¬ eqv k p.1 = true := by
        have := hs.1 p hp
        simp [eqv]; intro h; rw [this] at h; cases h
      rw [if_neg this, add_zero])
    refine ⟨r, ?_, hw, ?_⟩
    · rw [OpExpr.add2Loop]; simp only [hcont, if_true]; exact hr
    · intro w
      rw [hrc, coef_add hcur.toOk k w hm, coef_eq_sum htt.toOk, coef_eq_sum ht.toOk, List.map_cons, List.sum_cons, toRat_mul]
      split <;> ring

/-- **C59** (partial): for `c ≠ -1`, `e.add2(e,c)` multiplies every coefficient by `1+c`.
Missing: `c = -1`, where the code has undefined behaviour (`C59_add2_self_minus_one`). -/
theorem C59_add2_self_partial {e : OpExpr} (he : Built e) {c : Rational} (hc : Canon c) (h1 : 1 + toRat c ≠ 0) :
    ∃ r, OpExpr.add2Self e c = .ok r ∧ ∀ w, coef r w = (1 + toRat c) * coef e w := by
  have we := built_wf he
  obtain ⟨r, hr, _, h⟩ := add2Loop_spec c hc h1 e e we we (fun p hp => coef_of_mem we.toOk hp)
  exact ⟨r, hr, fun w => by rw [h]; ring⟩

/-- `add2` with a different expression adds `c` times its coefficients -/
theorem C59_add2_other {e f : OpExpr} (he : Built e) (hf : Built f) {c : Rational} (hc : Canon c) :
    ∀ w, coef (OpExpr.add2 e f c) w = coef e w + toRat c * coef f w := by
  have we := built_wf he
  have wf := built_wf hf
  intro w
  obtain ⟨_, _, h3⟩ := fold_add f Prod.fst (fun p => Rational.mul c p.2) (fun p hp => canon_mul hc (wf.canon p hp)) e we.toOk
  refine (h3 w).trans ?_
  rw [coef_eq_sum wf.toOk, ← List.sum_map_mul_left]
  congr 2; apply List.map_congr_left; intro p _
  simp only [toRat_mul]; split <;> ring

/-- **C59**, negation: `e.add2(e, -1)` is undefined behaviour for every non-empty expression. -/
theorem C59_add2_self_minus_one {e : OpExpr} (he : Built e) (hne : e ≠ []) {c : Rational} (hc : Canon c)
    (h1 : toRat c = -1) : OpExpr.add2Self e c = .error .ub := by
  have we := built_wf he
  cases e with
  | nil => exact absurd rfl hne
  | cons p e =>
    rcases p with ⟨k, v⟩
    have hv : Canon v := we.canon _ (List.mem_cons_self ..)
    have hm := canon_mul hc hv
    unfold OpExpr.add2Self
    rw [OpExpr.add2Loop]
    have h0 : coef (Lin.add ((k, v) :: e) k (Rational.mul c v)) k = 0 := by
      rw [coef_add we.toOk k k hm, if_pos (eqv_refl k), toRat_mul, h1]
      have := coef_of_mem we.toOk (List.mem_cons_self (a := (k, v)) (l := e))
      simp only at this
      rw [this]; ring
    have hw := wf_add we k hm
    have hcont : Lin.contains (Lin.add ((k, v) :: e) k (Rational.mul c v)) k = false := by
      unfold Lin.contains
      cases hf : SMap.find k (Lin.add ((k, v) :: e) k (Rational.mul c v)) with
      | none => rfl
      | some x =>
        exfalso
        obtain ⟨q, hq, hqk, hqx⟩ := SMap.find_some_mem hf
        have := coef_of_mem hw.toOk hq
        rw [coef_congr hqk, h0] at this
        exact hw.nonzero q hq this.symm
    simp only [hcont]; rfl

example : (OpExpr.add2Self exExpr (Rational.ofInt 2)).toOption.isSome ∧ toRat (Rational.ofInt (-1)) = -1 := by
  refine ⟨by decide, by simp⟩

end Wicked
