import Verif.Spec.Program
import Mathlib.GroupTheory.Perm.Sign
import Mathlib.Algebra.BigOperators.Group.Finset.Basic
/-! # Antisymmetrisation of arrays (C81) -/
namespace Wicked
open Equiv

section
variable {Ω S A : Type} [Inhabited Ω]

/-- the entries of a list rearranged by a permutation of the positions -/
def permuted {n : Nat} (σ : Perm (Fin n)) (s : List Ω) : List Ω := List.ofFn (fun k : Fin n => s.getD (σ k) default)

/-- the sum over all permutations of the `n` indices from position `p` on, with the signs of the permutations -/
def antisymmetrizer [CommRing S] (p n : Nat) (X : List Ω → S) (x : List Ω) : S :=
  ∑ σ : Perm (Fin n), ((Perm.sign σ : Int) : S) * X (x.take p ++ permuted σ ((x.drop p).take n) ++ x.drop (p + n))

/-- neighbouring operators of the same kind anticommute in the product `N` -/
def SwapsSign [AddGroup A] (N : List (SQType × Ω) → A) : Prop :=
  ∀ xs ty a b ys, N (xs ++ (ty, a) :: (ty, b) :: ys) = - N (xs ++ (ty, b) :: (ty, a) :: ys)
end
end Wicked
