import Mathlib.LinearAlgebra.Finsupp.LSum
import Mathlib.Algebra.Algebra.Basic
import Mathlib.Order.Fin.Basic
import Verif.Spec.NormalProduct
/-! # The Fock space: an explicit system of second-quantized operators for every set of orbitals

The states are linear combinations of determinants. A determinant is described by the finite set of the orbitals
in which it differs from the vacuum: occupied orbitals that are empty and unoccupied orbitals that are filled. -/
namespace Wicked

/-- linear combinations of determinants -/
abbrev FockSpace (Ω R : Type) [Semiring R] := Finset Ω →₀ R

section
variable {Ω : Type} [LinearOrder Ω] (R : Type) [CommRing R]

/-- minus one to the number of orbitals of `S` before `x` -/
def fockSign (x : Ω) (S : Finset Ω) : R := (-1) ^ (S.filter (· < x)).card

/-- take the orbital `x` out of the set -/
noncomputable def quasiAnn (x : Ω) : Module.End R (FockSpace Ω R) :=
  Finsupp.lsum R (fun S : Finset Ω => if x ∈ S then fockSign R x S • Finsupp.lsingle (S.erase x) else 0)

/-- put the orbital `x` into the set -/
noncomputable def quasiCre (x : Ω) : Module.End R (FockSpace Ω R) :=
  Finsupp.lsum R (fun S : Finset Ω => if x ∈ S then 0 else fockSign R x S • Finsupp.lsingle (insert x S))

/-- creation and annihilation operators: to create an electron in an orbital that is occupied in the vacuum takes the orbital
out of the set, in any other orbital puts it into the set; annihilation is the reverse -/
noncomputable def fockOp (hole : Ω → Bool) : SQType → Ω → Module.End R (FockSpace Ω R)
  | .creation, x => if hole x then quasiAnn R x else quasiCre R x
  | .annihilation, x => if hole x then quasiCre R x else quasiAnn R x

/-- the vacuum: the determinant that differs from the vacuum nowhere -/
noncomputable def fockVacuum : FockSpace Ω R := Finsupp.single ∅ 1

/-- the expectation value in the vacuum: the coefficient of the vacuum in `b|vacuum⟩` -/
noncomputable def fockExpectation : Module.End R (FockSpace Ω R) →ₗ[R] R where
  toFun b := b (fockVacuum R) ∅
  map_add' _ _ := rfl
  map_smul' _ _ := rfl
end
end Wicked
