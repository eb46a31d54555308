import Verif.Model.Term
import Mathlib.Algebra.Algebra.Defs
import Mathlib.Algebra.BigOperators.Group.List.Basic
import Mathlib.Data.Fintype.BigOperators
/-! # The meaning of a symbolic term: a sum over orbitals of tensor elements times operators -/
namespace Wicked

/-- all index occurrences of a term -/
def STerm.allIdx (t : STerm) : List Index :=
  t.ops.map SQOp.index ++ t.tensors.flatMap (fun x => x.lower ++ x.upper)

/-- A finite system of orbitals: the orbitals of every space, the elements of every tensor (label,
lower orbitals, upper orbitals) in a commutative ring, and the operators in an algebra. -/
structure OrbSystem (Ω R A : Type) where
  dom : Int → Finset Ω
  T : Str → List Ω → List Ω → R
  op : SQType → Ω → A

namespace OrbSystem
variable {Ω R A : Type} [CommRing R] [Ring A] [Algebra R A]

/-- the term with every index replaced by the orbital that `σ` assigns to it -/
def inst (v : OrbSystem Ω R A) (σ : Index → Ω) (t : STerm) : A :=
  (t.tensors.map (fun x => v.T x.label (x.lower.map σ) (x.upper.map σ))).prod •
    (t.ops.map (fun a => v.op a.type (σ a.index))).prod

/-- extend an assignment of orbitals to the indices in `S` to all indices (the value elsewhere is
never used) -/
def ext [Inhabited Ω] (S : Finset Index) (σ : {i // i ∈ S} → Ω) (i : Index) : Ω :=
  if h : i ∈ S then σ ⟨i, h⟩ else default

/-- Value of a term: the sum over all ways to assign to every index of the term an orbital of its
space (the summation convention of the package). -/
def value [Inhabited Ω] (v : OrbSystem Ω R A) (t : STerm) : A :=
  ∑ σ ∈ Fintype.piFinset (fun i : {i // i ∈ t.allIdx.toFinset} => v.dom i.1.space),
    v.inst (ext t.allIdx.toFinset σ) t

/-- the tensor elements have the symmetry declared by the tensors of the term -/
def RespectsSymmetry (v : OrbSystem Ω R A) (t : STerm) : Prop :=
  ∀ x ∈ t.tensors,
    (x.symm = .antisymmetric →
      (∀ pre a b post u, v.T x.label (pre ++ a :: b :: post) u = - v.T x.label (pre ++ b :: a :: post) u) ∧
      (∀ l pre a b post, v.T x.label l (pre ++ a :: b :: post) = - v.T x.label l (pre ++ b :: a :: post))) ∧
    (x.symm = .symmetric → ∀ l l' u u', l.Perm l' → u.Perm u' → v.T x.label l u = v.T x.label l' u')

/-- inside a normal-ordered product of fermionic operators all operators anticommute -/
def Anticommute (v : OrbSystem Ω R A) : Prop :=
  ∀ s s' x y, v.op s x * v.op s' y = - (v.op s' y * v.op s x)

end OrbSystem

/-- all tensors are antisymmetric in their lower and in their upper indices -/
def OrbSystem.Antisymmetric {Ω R A : Type} [CommRing R] (v : OrbSystem Ω R A) : Prop :=
  ∀ lab : Str, (∀ pre a b post u, v.T lab (pre ++ a :: b :: post) u = - v.T lab (pre ++ b :: a :: post) u) ∧
    (∀ l pre a b post, v.T lab l (pre ++ a :: b :: post) = - v.T lab l (pre ++ b :: a :: post))

end Wicked
