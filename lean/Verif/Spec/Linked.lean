import Verif.Spec.Wick
import Mathlib.Logic.Relation
/-! # Specification vocabulary: linked terms -/
namespace Wicked

/-- the two tensors carry a common index -/
def Tensor.Shares (x y : Tensor) : Prop := ∃ i, i ∈ x.lower ++ x.upper ∧ i ∈ y.lower ++ y.upper

/-- every tensor of the list is connected, through tensors of the list that share indices, to a tensor whose label is in `P` -/
def LinkedList (P : Str → Prop) (ts : List Tensor) : Prop :=
  ∀ x ∈ ts, ∃ y ∈ ts, P y.label ∧ Relation.ReflTransGen (fun a b => b ∈ ts ∧ a.Shares b) x y

/-- the term is linked: every tensor of it is connected to a tensor whose label is in `P` -/
def STerm.LinkedTo (P : Str → Prop) (t : STerm) : Prop := LinkedList P t.tensors

end Wicked

namespace Wicked

/-- the term is connected: any two of its tensors are connected through tensors that share indices -/
def STerm.Connected (t : STerm) : Prop :=
  ∀ x ∈ t.tensors, ∀ y ∈ t.tensors, Relation.ReflTransGen (fun a b => b ∈ t.tensors ∧ a.Shares b) x y

end Wicked

namespace Wicked

/-- an operator that can be used: registered spaces only, and an even number of second-quantized operators -/
structure EvenOp (o : OSI) (x : Operator) : Prop where
  valid : x.Valid o.spaces.length
  even : x.numOps % 2 = 0

/-- the operators of the expression -/
def OpsOf (E : OpExpr) (x : Operator) : Prop := ∃ p ∈ E, x ∈ p.1

/-- the labels of the operators of the expression -/
def LabelsOf (E : OpExpr) (l : Str) : Prop := ∃ x, OpsOf E x ∧ x.label = l

/-- a linear combination of single operators -/
def SingleOps (E : OpExpr) : Prop := ∀ p ∈ E, ∃ x, p.1 = [x]

end Wicked

namespace Wicked

/-- no space of the registry is of general type: every contraction is a pair -/
def OnlyPairs (o : OSI) : Prop := ∀ s < o.spaces.length, o.spaceType s = .ok .occupied ∨ o.spaceType s = .ok .unoccupied

/-- the two operators can never be contracted with one another: no space in which one of them creates and the other annihilates -/
def NeverContract (o : OSI) (x y : Operator) : Prop :=
  ∀ s < o.spaces.length, (x.gm.cre s = 0 ∨ y.gm.ann s = 0) ∧ (x.gm.ann s = 0 ∨ y.gm.cre s = 0)

/-- every product of the expression has at most `N` second-quantized operators -/
def AtMostOps (N : Nat) (E : OpExpr) : Prop := ∀ p ∈ E, ((p.1.map Operator.numOps).sum : Int) ≤ N

end Wicked
