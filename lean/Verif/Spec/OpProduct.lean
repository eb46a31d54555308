import Verif.Model.Operator
import Mathlib.Algebra.Ring.Basic
import Mathlib.Algebra.Group.Even
/-! # Specification vocabulary for products of operators (C40, C41) -/
namespace Wicked

/-- two operators share a contractible space: one has an annihilation operator and the other a creation
operator in the same space -/
def SharesContractible (ns : Nat) (a b : Operator) : Prop :=
  ∃ s < ns, (a.gm.ann s ≠ 0 ∧ b.gm.cre s ≠ 0) ∨ (a.gm.cre s ≠ 0 ∧ b.gm.ann s ≠ 0)

/-- number of second-quantized operators of `a` -/
def opRank (a : Operator) : Int := ((List.range 8).map (fun s => a.gm.cre s + a.gm.ann s)).sum

/-- An assignment of elements of an algebra to operators for which operators without a common contractible
space commute up to the sign `(-1)^(n₁ n₂)`. -/
structure Supercommutes {A : Type _} [Ring A] (ns : Nat) (φ : Operator → A) : Prop where
  even : ∀ a b, ¬ SharesContractible ns a b → Even (opRank a * opRank b) → φ a * φ b = φ b * φ a
  odd : ∀ a b, ¬ SharesContractible ns a b → ¬ Even (opRank a * opRank b) → φ a * φ b = -(φ b * φ a)

/-- products that differ by exchanging adjacent factors without a common contractible space -/
inductive Exchanges (ns : Nat) : OperatorProduct → OperatorProduct → Prop
  | refl (l) : Exchanges ns l l
  | step (l r : OperatorProduct) (a b : Operator) {m : OperatorProduct} : ¬ SharesContractible ns a b →
      Exchanges ns (l ++ b :: a :: r) m → Exchanges ns (l ++ a :: b :: r) m

open CppLt in
/-- `b` is placed next to `a` in the wrong order although the two could be exchanged -/
def Reducible (ns : Nat) (p : OperatorProduct) : Prop :=
  ∃ l r a b, p = l ++ a :: b :: r ∧ ¬ SharesContractible ns b a ∧ lt b a = true

end Wicked
