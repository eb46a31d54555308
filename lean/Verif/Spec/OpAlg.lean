import Verif.Model.Operator
import Verif.Spec.Lin
import Mathlib.Algebra.MonoidAlgebra.Defs
import Mathlib.Algebra.FreeMonoid.Basic
import Mathlib.Algebra.MonoidAlgebra.Basic
/-! # Operator expressions as elements of the free associative algebra on the operators (C21-C24) -/
namespace Wicked

/-- the free associative ℚ-algebra on the operators: linear combinations of words -/
abbrev OpAlg := MonoidAlgebra ℚ (FreeMonoid Operator)

/-- a product of operators as a word of the free algebra -/
noncomputable def wordVal (w : OperatorProduct) : OpAlg := MonoidAlgebra.single (FreeMonoid.ofList w) 1

/-- the element of the free algebra an operator expression denotes -/
noncomputable def opVal (e : OpExpr) : OpAlg := Lin.eval wordVal e

/-- `[[...[a,b],...],b]`, `k` times -/
noncomputable def nested (a b : OpAlg) : Nat → OpAlg
  | 0 => a
  | k + 1 => nested a b k * b - b * nested a b k

/-- no entry of an operator of the expression lies outside the first `ns` spaces (true of every
operator created with `ns` spaces registered) -/
def InSpaces (ns : Nat) (e : OpExpr) : Prop :=
  ∀ p ∈ e, ∀ o ∈ p.1, ∀ s, ns ≤ s → o.gm.get s = (0, 0)

end Wicked
