import Verif.Spec.NormalProduct
import Verif.Spec.Linked
import Verif.Spec.Rational
import Verif.Spec.OpAlg
import Verif.Model.Parse
/-! # Coupled-cluster theory (C85) -/
namespace Wicked

/-- an excitation operator: it has second-quantized operators, creates in unoccupied spaces only and annihilates in occupied spaces only -/
structure IsExcitation (o : OSI) (x : Operator) : Prop where
  some : 0 < x.numOps
  cre : ∀ s, x.gm.cre s ≠ 0 → o.spaceType s = .ok .unoccupied
  ann : ∀ s, x.gm.ann s ≠ 0 → o.spaceType s = .ok .occupied

/-- the hypotheses of C85 on the Hamiltonian and the cluster operator: `H` is a linear combination of products of one- and two-body operators (at most `N` second-quantized operators
in a product), `T` of products of excitation operators of any rank -/
structure CCInput (o : OSI) (H T : OpExpr) (N : Nat) : Prop where
  builtH : Built H
  builtT : Built T
  neH : ∀ q ∈ H, q.1 ≠ []
  neT : ∀ q ∈ T, q.1 ≠ []
  size : AtMostOps N H
  validH : ∀ x, OpsOf H x → x.Valid o.spaces.length
  two : ∀ x, OpsOf H x → ∀ s, x.gm.cre s ≤ 2 ∧ x.gm.ann s ≤ 2
  excT : ∀ x, OpsOf T x → EvenOp o x ∧ IsExcitation o x
  label : ∀ x, OpsOf H x ∨ OpsOf T x → ∀ c ∈ x.label, isWord c = true

/-- the value of an operator expression: the linear combination of the products of the values of the operators -/
def OrbSystem.exprValue {Ω R B : Type} [Inhabited Ω] [CommRing R] [Ring B] [Algebra R B] [Algebra ℚ B] (v : OrbSystem Ω R B) (hole : Ω → Bool) (ns : Nat) (E : OpExpr) : B :=
  (E.map (fun q => Rational.toRat q.2 • (q.1.map (v.opValue hole ns)).prod)).sum

end Wicked
