import Verif.Spec.Antisym
import Verif.Spec.NormalProduct
import Verif.Spec.Equation
/-! # Projections on excited determinants (C84) -/
namespace Wicked
open Equiv

section
variable {Ω B : Type} [Ring B]

/-- The adjoint of the excitation operator `cre(l₁)...cre(lₙ) ann(uₘ)...ann(u₁)` that takes electrons from the orbitals `u` to the orbitals `l`.
If `φ` is the expectation value in the vacuum, `φ (bra op u l * W)` is the matrix element `⟨excited determinant| W |vacuum⟩`. -/
def bra (op : SQType → Ω → B) (u l : List Ω) : B := (u.map (op .creation)).prod * (l.reverse.map (op .annihilation)).prod
end

/-- the permutation of positions exchanges only positions with the same letter -/
def KeepsLetters (U : Str) {n : Nat} (σ : Perm (Fin n)) : Prop := ∀ k : Fin n, U[(σ k : Nat)]? = U[(k : Nat)]?

instance (U : Str) {n : Nat} (σ : Perm (Fin n)) : Decidable (KeepsLetters U σ) := inferInstanceAs (Decidable (∀ _ : Fin n, _))

/-- The element `[u, l]` of the array `r` with axes in the spaces `U` and `L`, antisymmetrised: the sum over all permutations of the upper and of
the lower indices among those of the same space, with the signs of the permutations -/
def antisymmetrized {Ω S : Type} [Inhabited Ω] [CommRing S] (U L : Str) (r : List Ω → S) (u l : List Ω) : S :=
  ∑ σ : Perm (Fin u.length) with KeepsLetters U σ, ∑ τ : Perm (Fin l.length) with KeepsLetters L τ,
    ((Perm.sign σ : Int) : S) * ((Perm.sign τ : Int) : S) * r (permuted σ u ++ permuted τ l)

end Wicked

namespace Wicked

/-- the key with `n s` annihilation and `k s` creation operators in every space `s` -/
def spaceKey (o : OSI) (n k : Nat → Nat) : Str := repeatLabels o n ++ '|' :: (repeatLabels o k).reverse

end Wicked
