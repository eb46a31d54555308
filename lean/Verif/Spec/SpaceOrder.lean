import Verif.Model.Orbital
import Verif.Model.Operator
import Verif.Spec.OpMake
import Mathlib.Logic.Equiv.Defs
/-! # The same orbital spaces registered in another order (C92) -/
namespace Wicked

/-- the registries hold spaces of the same types, space number `s` of the first is number `π s` of the second -/
structure SameSpaces (π : Equiv.Perm Nat) (o o' : OSI) : Prop where
  num : o'.spaces.length = o.spaces.length
  lt : ∀ s, π s < o.spaces.length ↔ s < o.spaces.length
  type : ∀ s < o.spaces.length, o'.spaceType ((π s : Nat) : Int) = o.spaceType (s : Int)

/-- the same operator when space number `s` is called `π s` -/
def Operator.SameOp (π : Equiv.Perm Nat) (ns : Nat) (p p' : Operator) : Prop :=
  p'.label = p.label ∧ ∀ s < ns, p'.gm.cre (π s) = p.gm.cre s ∧ p'.gm.ann (π s) = p.gm.ann s

/-- Python programs that build an operator expression: `op(label, components, unique)` and the operations on operator expressions -/
inductive OpProg where
  | op (label : Str) (components : List Str) (unique : Bool)
  | plus (a b : OpProg)
  | minus (a b : OpProg)
  | neg (a : OpProg)
  | scale (num den : Int) (a : OpProg)
  | mul (a b : OpProg)
  | comm (a b : OpProg)
  | bch (a b : OpProg) (n : Int)
  | adj (a : OpProg)

/-- the expression that the program builds with the spaces of `o` registered -/
def OpProg.run (o : OSI) : OpProg → Res OpExpr
  | .op label cs unique => OpExpr.make o label cs unique
  | .plus a b => do return OpExpr.plus (← a.run o) (← b.run o)
  | .minus a b => do return OpExpr.minus (← a.run o) (← b.run o)
  | .neg a => do return Lin.neg (← a.run o)
  | .scale n d a => do return Lin.smul (← a.run o) (Rational.mk2 n d)
  | .mul a b => do return OpExpr.mul (← a.run o) (← b.run o)
  | .comm a b => do return OpExpr.commutator (← a.run o) (← b.run o)
  | .bch a b n => do return OpExpr.bchSeries (← a.run o) (← b.run o) n
  | .adj a => do return OpExpr.adjoint o.spaces.length (← a.run o)

/-- the letters of all components are labels of registered spaces and no denominator is zero -/
def OpProg.Fits (o : OSI) : OpProg → Prop
  | .op _ cs _ => ∀ c ∈ cs, Component.Registered o (OpExpr.findOps c)
  | .plus a b | .minus a b | .mul a b | .comm a b | .bch a b _ => a.Fits o ∧ b.Fits o
  | .neg a | .adj a => a.Fits o
  | .scale _ d a => d ≠ 0 ∧ a.Fits o

end Wicked
