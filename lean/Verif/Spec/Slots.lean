import Verif.Spec.Wick
/-! # The second-quantized operators of a product of operators -/
namespace Wicked

/-- One second-quantized operator of a product: it belongs to operator number `op`, carries an index of
space `space`, is a creation or annihilation operator, and is number `k` among those. -/
structure Slot where
  op : Nat
  space : Nat
  cre : Bool
  k : Nat
deriving DecidableEq, Repr

namespace Slot
def type (x : Slot) : SQType := if x.cre then .creation else .annihilation
end Slot

/-- the creation operators of operator number `o`, from left to right: spaces in increasing order -/
def creSlots (ns : Nat) (o : Nat) (p : Operator) : List Slot :=
  (List.range ns).flatMap (fun s => (List.range (p.gm.cre s).toNat).map (fun k => ⟨o, s, true, k⟩))

/-- its annihilation operators, from right to left -/
def annSlots (ns : Nat) (o : Nat) (p : Operator) : List Slot :=
  (List.range ns).flatMap (fun s => (List.range (p.gm.ann s).toNat).map (fun k => ⟨o, s, false, k⟩))

/-- all second-quantized operators of operator number `o`, from left to right -/
def opSlots (ns : Nat) (o : Nat) (p : Operator) : List Slot := creSlots ns o p ++ (annSlots ns o p).reverse

/-- all second-quantized operators of the product of operators number `o`, `o+1`, ... -/
def slotsFrom (ns : Nat) : Nat → OperatorProduct → List Slot
  | _, [] => []
  | o, p :: ops => opSlots ns o p ++ slotsFrom ns (o + 1) ops

/-- all second-quantized operators of the product, from left to right -/
def slots (ns : Nat) (ops : OperatorProduct) : List Slot := slotsFrom ns 0 ops

end Wicked

namespace Wicked

/-- a contraction of second-quantized operators, all in the same space, with an order chosen for its
creation and its annihilation operators -/
structure Block where
  space : Nat
  cre : List Slot
  ann : List Slot
deriving DecidableEq, Repr

/-- the operators of a block: creation operators first -/
def Block.flat (b : Block) : List Slot := b.cre ++ b.ann

end Wicked
