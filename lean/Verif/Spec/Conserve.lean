import Verif.Model.Term
import Verif.Model.Operator
/-! # Numbers of second-quantized operators, space by space (C90) -/
namespace Wicked

/-- the number of operators of one kind with an index of space `s` in a term -/
def STerm.numOf (t : STerm) (k : SQType) (s : Nat) : Nat := t.ops.countP (fun a => decide (a.type = k ∧ a.index.space = (s : Int)))

/-- the number of operators of one kind in space `s` in a product of operators -/
def OperatorProduct.numOf (ops : OperatorProduct) (k : SQType) (s : Nat) : Int :=
  (ops.map (fun p => match k with | .creation => p.gm.cre s | .annihilation => p.gm.ann s)).sum

end Wicked
