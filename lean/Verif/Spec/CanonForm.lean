import Verif.Model.Term
import Mathlib.Data.Multiset.UnionInter
import Mathlib.Data.Multiset.Filter
/-! # Terms up to names: when can the tensors of a term be told apart without the names of the indices? -/
namespace Wicked

/-- the spaces of the indices that two lists have in common, with multiplicities -/
def commonSpaces (l m : List Index) : Multiset Int := ((l : Multiset Index) ∩ (m : Multiset Index)).map Index.space

/-- what can be said about a tensor of a term without naming indices: its label, the spaces of its indices, and for the other tensors of
the term their labels and the spaces of the indices that run from the lower (upper) indices of this tensor to the upper (lower) indices of the other one -/
structure TensorSig where
  label : Str
  low : Multiset Int
  upp : Multiset Int
  lowConn : Multiset (Str × Multiset Int)
  uppConn : Multiset (Str × Multiset Int)
deriving DecidableEq

/-- the signature of the tensor `x` in a product of tensors -/
def tensorSig (ts : List Tensor) (x : Tensor) : TensorSig :=
  ⟨x.label, Multiset.map Index.space (x.lower : Multiset Index), Multiset.map Index.space (x.upper : Multiset Index),
    ((ts : Multiset Tensor).erase x).map (fun y => (y.label, commonSpaces x.lower y.upper)),
    ((ts : Multiset Tensor).erase x).map (fun y => (y.label, commonSpaces x.upper y.lower))⟩

/-- no two tensors of the term have the same signature -/
def STerm.Distinguishable (t : STerm) : Prop :=
  t.tensors.Pairwise (fun x y => tensorSig t.tensors x ≠ tensorSig t.tensors y)

/-- a tensor with other names for the indices -/
def Tensor.rename (ρ : Index → Index) (x : Tensor) : Tensor := { x with lower := x.lower.map ρ, upper := x.upper.map ρ }

/-- `t'` is `t` with other names for its indices and its operators and its tensors in any order -/
structure STerm.SameUpToNames (ρ : Index → Index) (t t' : STerm) : Prop where
  flag : t'.normalOrdered = t.normalOrdered
  ops : t'.ops.Perm (t.ops.map (fun a => ⟨a.type, ρ a.index⟩))
  tensors : t'.tensors.Perm (t.tensors.map (Tensor.rename ρ))

end Wicked
