import Verif.Spec.Fock
import Mathlib.Algebra.Star.Basic
import Mathlib.Algebra.Star.Module
/-! # Values of terms in an algebra with an adjoint (C31) -/
namespace Wicked

/-- A valuation in a *-algebra: tensors in a commutative *-ring, a conjugated tensor has the starred
value, creation and annihilation operators are adjoint to each other, and the value `braces` of a
normal-ordered product `{...}` is compatible with the adjoint. -/
structure StarValuation (R A : Type _) [CommRing R] [StarRing R] [Ring A] [StarRing A] where
  T : Str → List Index → List Index → R
  cre : Index → A
  ann : Index → A
  braces : List SQOp → A
  star_cre : ∀ i, star (cre i) = ann i
  star_braces : ∀ l, star (braces l) = braces (l.map SQOp.adjoint).reverse

namespace StarValuation
variable {R A : Type _} [CommRing R] [StarRing R] [Ring A] [StarRing A] [Algebra R A]

def op (v : StarValuation R A) (a : SQOp) : A :=
  match a.type with
  | .creation => v.cre a.index
  | .annihilation => v.ann a.index

/-- value of a tensor: starred if conjugated -/
def tensor (v : StarValuation R A) (t : Tensor) : R :=
  if t.conj then star (v.T t.label t.lower t.upper) else v.T t.label t.lower t.upper

/-- value of a term -/
def term (v : StarValuation R A) (t : STerm) : A :=
  (t.tensors.map v.tensor).prod • (if t.normalOrdered then v.braces t.ops else (t.ops.map v.op).prod)

end StarValuation

end Wicked
