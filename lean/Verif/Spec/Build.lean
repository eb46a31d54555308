import Verif.Model.Build
import Verif.Spec.Lin
/-! # Specification vocabulary for terms and expressions built call by call (C80) -/
namespace Wicked
open Rational

/-- the operators a call adds -/
def TermCall.newOps : TermCall → List SQOp
  | .addOp a => [a]
  | .addOps l => l
  | _ => []

/-- the tensors a call adds -/
def TermCall.newTensors : TermCall → List Tensor
  | .addTensor t => [t]
  | _ => []

/-- the call replaces the operators -/
def TermCall.isSet : TermCall → Bool
  | .setOps _ => true
  | _ => false

/-- the call changes the normal-ordered flag -/
def TermCall.isFlag : TermCall → Bool
  | .setNormalOrdered _ => true
  | _ => false

/-- the term and the number that one `+=` adds -/
def ExprCall.adds : ExprCall → STerm × ℚ
  | .term t => (t.base, toRat t.coefficient)
  | .pair t c => (t, toRat c)
  | .symbolic t => (t, 1)

/-- the number passed to `+=` is a rational as the constructor makes it -/
def ExprCall.Ok : ExprCall → Prop
  | .term t => Canon t.coefficient
  | .pair _ c => Canon c
  | .symbolic _ => True

/-- a word of letters, digits and underscores -/
def IndexWord (w : Str) : Prop := w ≠ [] ∧ ∀ c ∈ w, isWord c = true

end Wicked
