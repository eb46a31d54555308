import Verif.Proofs.OpProduct
import Verif.Proofs.OpAlg
import Verif.Props.Wick
import Mathlib.LinearAlgebra.Matrix.Notation
/-! # Canonicalization of products of operators: C40, C41 -/
namespace Wicked
open CppLt Rational

/-! ## C40 -/

theorem canonicalize_sign (ns : Nat) (p : OperatorProduct) :
    Canon (OperatorProduct.canonicalize ns p).2 ∧
    toRat (OperatorProduct.canonicalize ns p).2 = sgI (OperatorProduct.passes ns (p.length - 1) p 0).2 := by
  unfold OperatorProduct.canonicalize sgI
  simp only [beq_iff_eq]
  split
  · exact ⟨canon_mk2 _ _ (by decide), by rw [toRat_mk2]; norm_num⟩
  · exact ⟨canon_mk2 _ _ (by decide), by rw [toRat_mk2]; norm_num⟩

/-- **C40**: `canonicalize()` of a product returns a rearrangement of the factors and a sign `±1`; factors with a
common contractible space keep their relative order; and in every ℚ-algebra in which factors without a common
contractible space commute up to `(-1)^(n₁ n₂)` the sign times the rearranged product is the original product. -/
theorem C40_canonicalize_sound {ns : Nat} {p : OperatorProduct} (hv : ∀ a ∈ p, a.Valid ns) :
    (OperatorProduct.canonicalize ns p).1.Perm p ∧
    (toRat (OperatorProduct.canonicalize ns p).2 = 1 ∨ toRat (OperatorProduct.canonicalize ns p).2 = -1) ∧
    (∀ x y, SharesContractible ns x y →
      (OperatorProduct.canonicalize ns p).1.filter (fun a => decide (a = x ∨ a = y)) =
        p.filter (fun a => decide (a = x ∨ a = y))) ∧
    ∀ {A : Type} [Ring A] [Algebra ℚ A] {φ : Operator → A}, Supercommutes ns φ →
      toRat (OperatorProduct.canonicalize ns p).2 • ((OperatorProduct.canonicalize ns p).1.map φ).prod = (p.map φ).prod := by
  obtain ⟨h1, h2, h3⟩ := passes_spec ns (p.length - 1) p 0 hv
  obtain ⟨_, hs⟩ := canonicalize_sign ns p
  refine ⟨h1, ?_, h2, ?_⟩
  · rw [hs, sgI]; split <;> simp
  · intro A _ _ φ hφ
    have := h3 hφ
    rw [hs]
    rw [show (sgI 0 : ℤ) = 1 from rfl, Int.cast_one, one_mul] at this
    rw [this]
    show ((sgI _ : ℤ) : ℚ) • ((OperatorProduct.passes ns (p.length - 1) p 0).1.map φ).prod = _
    rw [Int.cast_smul_eq_zsmul, zsmul_eq_mul]

/-- **C40** (expressions): `canonicalize()` of an operator expression keeps its value in every such algebra. -/
theorem C40_expression_value {ns : Nat} {e : OpExpr} (he : Lin.Ok e) (hv : ∀ t ∈ e, ∀ a ∈ t.1, a.Valid ns)
    {A : Type} [Ring A] [Algebra ℚ A] {φ : Operator → A} (hφ : Supercommutes ns φ) :
    Lin.eval (fun p : OperatorProduct => (p.map φ).prod) (OpExpr.canonicalize ns e) =
      Lin.eval (fun p : OperatorProduct => (p.map φ).prod) e := by
  unfold OpExpr.canonicalize
  rw [Lin.eval_fold_add (fun p : OperatorProduct => (p.map φ).prod) (fun a b h => by rw [eqv_eq.1 h]) e
    (fun p => (OperatorProduct.canonicalize ns p.1).1) (fun p => Rational.mul (OperatorProduct.canonicalize ns p.1).2 p.2)
    (fun b hb => canon_mul (canonicalize_sign ns b.1).1 (he.canon b hb)) [] Lin.ok_nil, Lin.eval_nil, zero_add, Lin.eval]
  congr 1
  apply List.map_congr_left
  intro t ht
  have := (C40_canonicalize_sound (hv t ht)).2.2.2 hφ
  rw [toRat_mul, ← this, smul_smul, mul_comm]

/-- two operators with three second-quantized operators each and no common space -/
def exX : Operator := mkOp "x" [(1, 1), (1, 0)]
def exA : Operator := mkOp "a" [(0, 0), (0, 0), (1, 1), (0, 1)]

/-- an assignment of 2×2 matrices under which `exX` and `exA` anticommute -/
def exPauli (a : Operator) : Matrix (Fin 2) (Fin 2) ℚ :=
  if a = exX then !![0, 1; 1, 0] else if a = exA then !![1, 0; 0, -1] else 0

theorem exPauli_supercommutes : Supercommutes 4 exPauli := by
  have hx : SharesContractible 4 exX exX := ⟨0, by omega, Or.inl (by decide +kernel)⟩
  have ha : SharesContractible 4 exA exA := ⟨2, by omega, Or.inl (by decide +kernel)⟩
  have hne : exA ≠ exX := by decide +kernel
  constructor
  · intro a b hs he
    unfold exPauli
    by_cases h1 : a = exX
    · by_cases h2 : b = exX
      · rw [h1, h2] at hs; exact absurd hx hs
      · by_cases h3 : b = exA
        · rw [h1, h3] at he; exact absurd he (by decide +kernel)
        · simp [h2, h3]
    · by_cases h1' : a = exA
      · by_cases h2 : b = exX
        · rw [h1', h2] at he; exact absurd he (by decide +kernel)
        · by_cases h3 : b = exA
          · rw [h1', h3] at hs; exact absurd ha hs
          · simp [h2, h3]
      · simp [h1, h1']
  · intro a b hs he
    unfold exPauli
    by_cases h1 : a = exX
    · by_cases h2 : b = exX
      · rw [h1, h2] at hs; exact absurd hx hs
      · by_cases h3 : b = exA
        · simp [h1, h3, hne]
        · simp [h2, h3]
    · by_cases h1' : a = exA
      · by_cases h2 : b = exX
        · simp [h2, h1', hne]
        · by_cases h3 : b = exA
          · rw [h1', h3] at hs; exact absurd ha hs
          · simp [h2, h3]
      · simp [h1, h1']

-- `x a` is rewritten to `- a x`, in an algebra where `x a = - a x` and this product is not zero
example : OperatorProduct.canonicalize 4 [exX, exA] = ([exA, exX], ⟨-1, 1⟩) ∧
    (∀ a ∈ [exX, exA], a.Valid 4) ∧ ([exX, exA].map exPauli).prod ≠ 0 := by
  refine ⟨by decide +kernel, ?_, ?_⟩
  · intro a h
    simp only [List.mem_cons, List.not_mem_nil, or_false] at h
    rcases h with rfl | rfl <;> exact mkOp_valid _ _ _ (by decide) (by decide)
  · intro h
    have := congrFun (congrFun h 0) 1
    have hne : exA ≠ exX := by decide +kernel
    simp [exPauli, hne] at this

/-! ## C41 -/

theorem not_reducible_iff {ns : Nat} {p : OperatorProduct} (hv : ∀ a ∈ p, a.Valid ns) :
    ¬ Reducible ns p ↔ Irreducible' ns p := by
  unfold Irreducible' Reducible
  induction p with
  | nil => simp
  | cons x p ih =>
    rcases p with _ | ⟨y, p⟩
    · refine iff_of_true ?_ (List.isChain_singleton _)
      rintro ⟨l, r, a, b, h, _⟩
      have := congrArg List.length h
      simp at this
      omega
    · rw [List.isChain_cons_cons, ← ih (fun a ha => hv a (by simp [ha]))]
      have hx := hv x (by simp)
      have hy := hv y (by simp)
      have hn := ncless_iff hy hx
      constructor
      · intro h
        refine ⟨?_, ?_⟩
        · rw [Bool.eq_false_iff, ne_eq, hn]
          exact fun hc => h ⟨[], p, x, y, rfl, hc.1, hc.2⟩
        · rintro ⟨l, r, a, b, e, h1⟩
          exact h ⟨x :: l, r, a, b, by rw [e]; rfl, h1⟩
      · rintro ⟨h1, h2⟩ ⟨l, r, a, b, e, h3, h4⟩
        rcases l with _ | ⟨z, l⟩
        · simp only [List.nil_append, List.cons.injEq] at e
          obtain ⟨rfl, rfl, _⟩ := e
          rw [hn.2 ⟨h3, h4⟩] at h1; cases h1
        · simp only [List.cons_append, List.cons.injEq] at e
          exact h2 ⟨l, r, a, b, e.2, h3, h4⟩

/-- **C41**: in the result no two neighbouring factors could be exchanged to the right order, although the code
shortens its passes as if the tail were already sorted; so canonicalizing a second time changes nothing. -/
theorem C41_irreducible {ns : Nat} {p : OperatorProduct} (hv : ∀ a ∈ p, a.Valid ns) :
    ¬ Reducible ns (OperatorProduct.canonicalize ns p).1 ∧
    (OperatorProduct.canonicalize ns (OperatorProduct.canonicalize ns p).1).1 = (OperatorProduct.canonicalize ns p).1 ∧
    toRat (OperatorProduct.canonicalize ns (OperatorProduct.canonicalize ns p).1).2 = 1 := by
  have hi := canonicalize_irreducible ns p
  have hp := (C40_canonicalize_sound hv).1
  refine ⟨(not_reducible_iff (fun a ha => hv a (hp.subset ha))).2 hi, ?_, ?_⟩
  · show (OperatorProduct.passes _ _ _ _).1 = _
    rw [passes_of_irreducible _ _ hi]
  · rw [(canonicalize_sign ns _).2, passes_of_irreducible _ _ hi]; rfl

/-- **C41** (partial): products that differ by exchanging adjacent factors without a common contractible space have
the same canonical form, provided that whenever `a < b < c` are factors and `a`, `b` and `b`, `c` can be exchanged,
so can `a`, `c`.  Missing: the other products, for which it is false (`C41_not_normal_form`). -/
theorem C41_normal_form_partial {ns : Nat} {p q : OperatorProduct} (hv : ∀ a ∈ p, a.Valid ns)
    (hc : ∀ a ∈ p, ∀ b ∈ p, ∀ c ∈ p, lt a b = true → lt b c = true → ¬ SharesContractible ns a b →
      ¬ SharesContractible ns b c → ¬ SharesContractible ns a c)
    (h : Exchanges ns p q) :
    (OperatorProduct.canonicalize ns p).1 = (OperatorProduct.canonicalize ns q).1 := by
  obtain ⟨hp, hf⟩ := exchanges_invariants h
  have hq : ∀ a ∈ q, a.Valid ns := fun a ha => hv a (hp.symm.subset ha)
  obtain ⟨p1, _, p3, _⟩ := C40_canonicalize_sound hv
  obtain ⟨q1, _, q3, _⟩ := C40_canonicalize_sound hq
  refine irreducible_unique _ _ (fun a ha => hv a (p1.subset ha)) (p1.trans (hp.trans q1.symm)) ?_ ?_
    (canonicalize_irreducible ns p) (canonicalize_irreducible ns q)
  · intro x y hxy
    rw [p3 x y hxy, q3 x y hxy, hf x y hxy]
  · intro a ha b hb c hcc
    exact hc a (p1.subset ha) b (p1.subset hb) c (p1.subset hcc)

/-- **C41** (all factors exchangeable, e.g. a product of cluster operators): every rearrangement of the product has
the same canonical form, the sorted product. -/
theorem C41_commuting_factors {ns : Nat} {p q : OperatorProduct} (hv : ∀ a ∈ p, a.Valid ns)
    (hc : ∀ a ∈ p, ∀ b ∈ p, ¬ SharesContractible ns a b) (h : p.Perm q) :
    (OperatorProduct.canonicalize ns p).1 = stdSort p ∧
    (OperatorProduct.canonicalize ns p).1 = (OperatorProduct.canonicalize ns q).1 := by
  have key : ∀ r : OperatorProduct, p.Perm r → (OperatorProduct.canonicalize ns r).1 = stdSort p := by
    intro r hr
    have hvr : ∀ a ∈ r, a.Valid ns := fun a ha => hv a (hr.symm.subset ha)
    obtain ⟨r1, _, _, _⟩ := C40_canonicalize_sound hvr
    apply sorted_unique
    · exact r1.trans (hr.symm.trans (stdSort_perm p).symm)
    · have hi := canonicalize_irreducible ns r
      have hm : ∀ a ∈ (OperatorProduct.canonicalize ns r).1, a ∈ p := fun a ha => hr.symm.subset (r1.subset ha)
      have hch : ((OperatorProduct.canonicalize ns r).1).IsChain (fun a b => CppLt.lt b a = false) := by
        revert hi hm
        generalize (OperatorProduct.canonicalize ns r).1 = l
        unfold Irreducible'
        intro hi hm
        induction l with
        | nil => exact List.isChain_nil
        | cons x l ih =>
          rcases l with _ | ⟨y, l⟩
          · exact List.isChain_singleton _
          · rw [List.isChain_cons_cons] at hi ⊢
            refine ⟨?_, ih hi.2 (fun a ha => hm a (by simp [ha]))⟩
            have h1 := hm x (by simp)
            have h2 := hm y (by simp)
            by_contra hb
            have := (ncless_iff (ns := ns) (hv y h2) (hv x h1)).2 ⟨hc y h2 x h1, by simpa using hb⟩
            rw [this] at hi; cases hi.1
      have htr : IsTrans Operator (fun a b => CppLt.lt b a = false) := ⟨fun a b c h1 h2 => not_lt_trans h1 h2⟩
      exact List.isChain_iff_pairwise.1 hch
    · exact stdSort_sorted p
  exact ⟨key p (List.Perm.refl _), by rw [key p (List.Perm.refl _), key q h]⟩

/-- **C41**, negation: `c a b` and `c b a` differ by exchanging the commuting neighbours `a`, `b`; their canonical
forms are the different products `c a b` and `b c a`. -/
theorem C41_not_normal_form : ∃ p q : OperatorProduct, (∀ a ∈ p, a.Valid 3) ∧ Exchanges 3 p q ∧
    (OperatorProduct.canonicalize 3 p).1 ≠ (OperatorProduct.canonicalize 3 q).1 := by
  refine ⟨[mkOp "c" [(1, 0), (0, 0), (0, 1)], mkOp "a" [(0, 1), (0, 0), (1, 0)], mkOp "b" [(0, 0), (1, 1)]],
    [mkOp "c" [(1, 0), (0, 0), (0, 1)], mkOp "b" [(0, 0), (1, 1)], mkOp "a" [(0, 1), (0, 0), (1, 0)]], ?_, ?_, ?_⟩
  · intro a h
    simp only [List.mem_cons, List.not_mem_nil, or_false] at h
    rcases h with rfl | rfl | rfl <;> exact mkOp_valid _ _ _ (by decide) (by decide)
  · refine Exchanges.step [_] [] _ _ ?_ (Exchanges.refl _)
    rintro ⟨s, hs, h⟩
    have : s = 0 ∨ s = 1 ∨ s = 2 := by omega
    rcases this with rfl | rfl | rfl <;> exact absurd h (by decide +kernel)
  · decide +kernel

-- the hypotheses of the partial theorem hold for cluster operators of different rank
example : (∀ a ∈ [mkOp "t" [(0, 2), (2, 0)], mkOp "t" [(0, 1), (1, 0)]], ∀ b ∈ [mkOp "t" [(0, 2), (2, 0)], mkOp "t" [(0, 1), (1, 0)]],
      ¬ SharesContractible 2 a b) ∧
    (OperatorProduct.canonicalize 2 [mkOp "t" [(0, 2), (2, 0)], mkOp "t" [(0, 1), (1, 0)]]).1 =
      [mkOp "t" [(0, 1), (1, 0)], mkOp "t" [(0, 2), (2, 0)]] := by
  refine ⟨?_, by decide +kernel⟩
  intro a ha b hb
  simp only [List.mem_cons, List.not_mem_nil, or_false] at ha hb
  rintro ⟨s, hs, h⟩
  have : s = 0 ∨ s = 1 := by omega
  rcases ha with rfl | rfl <;> rcases hb with rfl | rfl <;> rcases this with rfl | rfl <;> exact absurd h (by decide +kernel)

end Wicked
