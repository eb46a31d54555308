import Verif.Spec.OrbitalSum
/-! # How the indices of a term are paired -/
namespace Wicked

/-- the lower tensor indices and the indices of annihilation operators -/
def STerm.lowAnn (t : STerm) : List Index :=
  t.tensors.flatMap Tensor.lower ++ (t.ops.filter (fun a => decide (a.type = .annihilation))).map SQOp.index

/-- the upper tensor indices and the indices of creation operators -/
def STerm.uppCre (t : STerm) : List Index :=
  t.tensors.flatMap Tensor.upper ++ (t.ops.filter (fun a => decide (a.type = .creation))).map SQOp.index

/-- every index of the term occurs exactly twice: once as a lower tensor index or on an annihilation
operator, and once as an upper tensor index or on a creation operator -/
def STerm.IndicesPair (t : STerm) : Prop :=
  ∀ i ∈ t.allIdx, t.lowAnn.count i = 1 ∧ t.uppCre.count i = 1

end Wicked
