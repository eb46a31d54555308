import Verif.Spec.Fock
import Verif.Proofs.TermOrder
import Verif.Spec.Order
/-! # C14: the comparison operators are strict weak orders -/
namespace Wicked
open Spec

theorem isStrictWeak_of (α : Type _) [CppLt α] [StrictWeak α] : IsStrictWeak (CppLt.lt (α := α)) :=
  ⟨StrictWeak.irrefl, StrictWeak.trans, fun a b c h h' => StrictWeak.incomp a b c h.1 h.2 h'.1 h'.2⟩

theorem isTotal_of (α : Type _) [CppLt α] [StrictTotal α] : IsTotal (CppLt.lt (α := α)) :=
  fun a b => by rw [← eqv_iff, eqv_eq]

/-- **C14** for the total comparators: `Index`, `SQOperator`, `GraphMatrix`, `Operator`,
`OperatorProduct`: strict weak order, `==` is incomparability, and incomparable values are
identical. -/
theorem C14_total_orders :
    (IsStrictWeak Index.lt ∧ IsTotal Index.lt) ∧
    (IsStrictWeak SQOp.ltB ∧ IsTotal SQOp.ltB) ∧
    (IsStrictWeak (CppLt.lt (α := GraphMatrix)) ∧ IsTotal (CppLt.lt (α := GraphMatrix)) ∧
      EqIsIncomparable (CppLt.lt (α := GraphMatrix)) CppEq.eq) ∧
    (IsStrictWeak Operator.ltB ∧ IsTotal Operator.ltB ∧ EqIsIncomparable Operator.ltB Operator.eqB) ∧
    (IsStrictWeak (CppLt.lt (α := OperatorProduct)) ∧ IsTotal (CppLt.lt (α := OperatorProduct)) ∧
      EqIsIncomparable (CppLt.lt (α := OperatorProduct)) CppEq.eq) :=
  ⟨⟨isStrictWeak_of Index, isTotal_of Index⟩, ⟨isStrictWeak_of SQOp, isTotal_of SQOp⟩,
   ⟨isStrictWeak_of GraphMatrix, isTotal_of GraphMatrix, EqvIsEq.iff⟩,
   ⟨isStrictWeak_of Operator, isTotal_of Operator, EqvIsEq.iff (α := Operator)⟩,
   ⟨isStrictWeak_of OperatorProduct, isTotal_of OperatorProduct, EqvIsEq.iff⟩⟩

/-- **C14** for `Tensor` and `SymbolicTerm`: strict weak orders whose incomparability is `==`;
two tensors are incomparable iff label and indices agree, two terms iff operators and all tensor
labels and indices agree. -/
theorem C14_tensor_and_term_orders :
    (IsStrictWeak Tensor.ltB ∧ EqIsIncomparable Tensor.ltB Tensor.eqB ∧
      ∀ a b : Tensor, Tensor.eqB a b = true ↔
        (a.label = b.label ∧ a.lower = b.lower ∧ a.upper = b.upper)) ∧
    (IsStrictWeak STerm.ltB ∧ EqIsIncomparable STerm.ltB STerm.eqB ∧
      ∀ a b : STerm, STerm.eqB a b = true ↔
        (a.ops = b.ops ∧ a.tensors.map (fun t => (t.label, t.lower, t.upper)) =
          b.tensors.map (fun t => (t.label, t.lower, t.upper)))) := by
  refine ⟨⟨isStrictWeak_of Tensor, EqvIsEq.iff (α := Tensor), fun a b => ?_⟩,
    isStrictWeak_of STerm, EqvIsEq.iff (α := STerm), fun a b => ?_⟩
  · rw [show Tensor.eqB a b = CppEq.eq a b from rfl, tensor_eq]; simp [Tensor.key]
  · rw [show STerm.eqB a b = CppEq.eq a b from rfl, sterm_eq]
    simp only [STerm.key, Prod.mk.injEq]
    exact and_comm

/-- **C14** for the pair and tuple keys handed to `std::sort`: (index, position),
(operator, position) are totally ordered; the seven-component score of a tensor is a strict weak
order, incomparable iff the first six components agree and the tensors are `==`. -/
theorem C14_sort_keys :
    (IsStrictWeak (CppLt.lt (α := Index × Int)) ∧ IsTotal (CppLt.lt (α := Index × Int))) ∧
    (IsStrictWeak (CppLt.lt (α := SQOp × Int)) ∧ IsTotal (CppLt.lt (α := SQOp × Int))) ∧
    (IsStrictWeak (CppLt.lt (α := STerm.Score)) ∧
      ∀ a b : STerm.Score, (CppLt.lt a b = false ∧ CppLt.lt b a = false) ↔
        (a.1 = b.1 ∧ a.2.1 = b.2.1 ∧ a.2.2.1 = b.2.2.1 ∧ a.2.2.2.1 = b.2.2.2.1 ∧
         a.2.2.2.2.1 = b.2.2.2.2.1 ∧ a.2.2.2.2.2.1 = b.2.2.2.2.2.1 ∧
         Tensor.eqB a.2.2.2.2.2.2 b.2.2.2.2.2.2 = true)) := by
  refine ⟨⟨isStrictWeak_of _, isTotal_of _⟩, ⟨isStrictWeak_of _, isTotal_of _⟩,
    isStrictWeak_of _, fun a b => ?_⟩
  rw [← eqv_iff]
  simp only [pair_eqv, eqv_eq]
  rw [show Tensor.eqB a.2.2.2.2.2.2 b.2.2.2.2.2.2 =
    CppEq.eq (α := Tensor) a.2.2.2.2.2.2 b.2.2.2.2.2.2 from rfl, cppEq_iff]

/-- the outcome of `normal_ordered_less` for operators in registered spaces -/
theorem normalOrderedLess_eq (o : OSI) (a b : SQOp) (qa qb : Bool) (ha : a.isQpCre o = .ok qa)
    (hb : b.isQpCre o = .ok qb) :
    a.normalOrderedLess o b = .ok (if qa != qb then qa else
      if qa then CppLt.lt a.index b.index else CppLt.lt b.index a.index) := by
  have : ∃ st, o.spaceType a.index.space = .ok st := by
    unfold SQOp.isQpCre at ha
    rcases h : o.spaceType a.index.space with e | st
    · rw [h] at ha; cases ha
    · exact ⟨st, rfl⟩
  obtain ⟨st, hst⟩ := this
  unfold SQOp.normalOrderedLess
  rw [hst, ha, hb]
  cases qa <;> cases qb <;> rfl

theorem isQpCre_of_registered {o : OSI} {a : SQOp} (h : a.Registered o) : ∃ q, a.isQpCre o = .ok q := by
  obtain ⟨st, h⟩ := h
  unfold SQOp.isQpCre; rw [h]; exact ⟨_, rfl⟩

theorem sqop_eq_of_qp {o : OSI} {a b : SQOp} {q : Bool} (ha : a.isQpCre o = .ok q)
    (hb : b.isQpCre o = .ok q) (h : a.index = b.index) : a = b := by
  apply SQOp.ext' _ h
  unfold SQOp.isQpCre at ha hb
  rw [h] at ha
  rcases hs : o.spaceType b.index.space with e | st
  · rw [hs] at ha; cases ha
  · rw [hs] at ha hb
    simp only [bind, Except.bind, pure, Except.pure, Except.ok.injEq] at ha hb
    rw [← hb] at ha
    split at ha
    · simpa using ha
    · exact ha

/-- **C14** for `normal_ordered_less`: on operators of registered spaces it never fails and is a
strict total order. -/
theorem C14_normal_ordered_less (o : OSI) (a b c : SQOp) (ha : a.Registered o) (hb : b.Registered o)
    (hc : c.Registered o) :
    (∃ r, a.normalOrderedLess o b = .ok r) ∧
    a.normalOrderedLess o a = .ok false ∧
    (a.normalOrderedLess o b = .ok true → b.normalOrderedLess o c = .ok true →
      a.normalOrderedLess o c = .ok true) ∧
    ((a.normalOrderedLess o b = .ok false ∧ b.normalOrderedLess o a = .ok false) ↔ a = b) := by
  obtain ⟨qa, ha⟩ := isQpCre_of_registered ha
  obtain ⟨qb, hb⟩ := isQpCre_of_registered hb
  obtain ⟨qc, hc⟩ := isQpCre_of_registered hc
  rw [normalOrderedLess_eq o a b qa qb ha hb, normalOrderedLess_eq o a a qa qa ha ha,
    normalOrderedLess_eq o b c qb qc hb hc, normalOrderedLess_eq o a c qa qc ha hc,
    normalOrderedLess_eq o b a qb qa hb ha]
  refine ⟨⟨_, rfl⟩, ?_, ?_, ?_⟩
  · cases qa <;> simp [StrictWeak.irrefl]
  · cases qa <;> cases qb <;> cases qc <;> simp
    · intro h h'; exact StrictWeak.trans _ _ _ h' h
    · intro h h'; exact StrictWeak.trans _ _ _ h h'
  · constructor
    · rcases qa <;> rcases qb <;> simp
      · intro h h'; exact sqop_eq_of_qp ha hb (StrictTotal.conn _ _ h' h)
      · intro h h'; exact sqop_eq_of_qp ha hb (StrictTotal.conn _ _ h h')
    · rintro rfl
      rw [hb] at ha
      cases ha
      cases qa <;> simp [StrictWeak.irrefl]

/-! Non-vacuity: distinct values are strictly ordered; the comparators are not constant. -/
example : SQOp.ltB ⟨.creation, ⟨0, 1⟩⟩ ⟨.annihilation, ⟨0, 0⟩⟩ = true ∧
    SQOp.ltB ⟨.annihilation, ⟨0, 1⟩⟩ ⟨.annihilation, ⟨0, 0⟩⟩ = true ∧
    STerm.ltB ⟨false, [⟨.creation, ⟨0, 0⟩⟩], []⟩ ⟨false, [⟨.creation, ⟨0, 1⟩⟩], []⟩ = true := by decide

end Wicked
