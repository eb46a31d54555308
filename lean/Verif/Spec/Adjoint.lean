import Verif.Spec.Gno
import Mathlib.Algebra.Star.Basic
/-! # Vocabulary for the adjoint of a contraction (C75) -/
namespace Wicked

/-- the adjoint of a second-quantized operator: creation and annihilation exchanged, same orbital -/
def flipMode {Ω : Type} (m : SQType × Ω) : SQType × Ω :=
  (match m.1 with | .creation => .annihilation | .annihilation => .creation, m.2)

/-- all tensors are Hermitian: exchanging lower and upper orbitals conjugates the element. (An operator and its adjoint have the
same label in the package, so this is what it means that the label stands for one array of numbers.) -/
def OrbSystem.Hermitian {Ω R A : Type} [CommRing R] [StarRing R] (v : OrbSystem Ω R A) : Prop :=
  ∀ lab l u, star (v.T lab l u) = v.T lab u l

/-- the reference is Hermitian: the adjoint of `a†_{p₁} ... a†_{p_k} a_{q₁} ... a_{q_k}` is
`a†_{q_k} ... a†_{q₁} a_{p_k} ... a_{p₁}`, and the density matrix and the cumulants conjugate accordingly -/
def Reference.Hermitian {Ω R : Type} [CommRing R] [StarRing R] (ρ : Reference Ω R) : Prop :=
  (∀ p q, star (ρ.gamma p q) = ρ.gamma q p) ∧ ∀ ps qs, ps.length = qs.length → 2 ≤ ps.length → star (ρ.cumulant ps qs) = ρ.cumulant qs.reverse ps.reverse

/-- What the products in braces of the package are required to satisfy: the operators in them anticommute, and the adjoint of a
product in braces is the product of the adjoints in the opposite order, in braces. -/
structure StarBraces {Ω B : Type} [Ring B] [StarRing B] (N : List (SQType × Ω) → B) : Prop where
  anticommute : ∀ pre a b post, N (pre ++ a :: b :: post) = - N (pre ++ b :: a :: post)
  adjoint : ∀ l, star (N l) = N (l.map flipMode).reverse

end Wicked
