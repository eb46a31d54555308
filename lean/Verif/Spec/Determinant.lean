import Verif.Spec.Gno
/-! # The reference of a single determinant (C94) -/
namespace Wicked

/-- the density matrix of the determinant in which the orbitals in `hole` are occupied; it has no cumulants -/
def determinant {Ω R : Type} [DecidableEq Ω] [CommRing R] (hole : Ω → Bool) : Reference Ω R where
  gamma := fun p q => if p = q ∧ hole p = true then 1 else 0
  cumulant := fun _ _ => 0

end Wicked
