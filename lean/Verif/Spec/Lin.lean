import Verif.Model.Algebra
import Verif.Spec.Rational
/-! # Specification vocabulary for expressions stored as `std::map<T, scalar_t>` -/
namespace Wicked.Lin
open Rational

variable {κ : Type _} [CppLt κ]

/-- the coefficient of `k` as a number: the value found in the map, 0 if absent -/
def coef (m : Lin κ) (k : κ) : ℚ := ((SMap.find k m).map toRat).getD 0

/-- keys strictly increasing and coefficients canonical -/
structure Ok (m : Lin κ) : Prop where
  sorted : m.Pairwise (fun p q => CppLt.lt p.1 q.1 = true)
  canon : ∀ p ∈ m, Canon p.2

/-- additionally no stored coefficient is zero -/
structure WF (m : Lin κ) : Prop extends Ok m where
  nonzero : ∀ p ∈ m, toRat p.2 ≠ 0

/-- value of an expression in a rational vector space, given the value of each term -/
def eval {M : Type _} [AddCommGroup M] [SMul ℚ M] (φ : κ → M) (m : Lin κ) : M :=
  (m.map (fun p => toRat p.2 • φ p.1)).sum

end Wicked.Lin

namespace Wicked
open Rational

/-- A history of user operations that builds an expression: start empty, `e.add(k, n/d)`,
`e += f`, `e -= f`, where `f` has a history of its own. -/
inductive Hist (κ : Type _) where
  | empty
  | add (h : Hist κ) (k : κ) (n d : Int) (hd : d ≠ 0)
  | plusEq (h f : Hist κ)
  | minusEq (h f : Hist κ)

namespace Hist
variable {κ : Type _}

/-- the expression the code ends up with -/
def run [CppLt κ] : Hist κ → Lin κ
  | empty => []
  | add h k n d _ => (run h).add k (Rational.mk2 n d)
  | plusEq h f => (run h).plus (run f)
  | minusEq h f => (run h).minus (run f)

/-- what the coefficient of `k` should be: the plain sum of everything added for terms `==` to `k` -/
def total [CppEq κ] (k : κ) : Hist κ → ℚ
  | empty => 0
  | add h k' n d _ => total k h + if CppEq.eq k' k then (n : ℚ) / d else 0
  | plusEq h f => total k h + total k f
  | minusEq h f => total k h - total k f

end Hist

/-- Expressions a user can build with `add`, `+=`, `-=`, unary minus, products, adjoints and
multiplication by non-zero numbers. -/
inductive Built {κ : Type _} [CppLt κ] : Lin κ → Prop
  | empty : Built []
  | add {e : Lin κ} (k : κ) (n d : Int) : d ≠ 0 → Built e → Built (e.add k (Rational.mk2 n d))
  | plus {e f : Lin κ} : Built e → Built f → Built (e.plus f)
  | minus {e f : Lin κ} : Built e → Built f → Built (e.minus f)
  | neg {e : Lin κ} : Built e → Built e.neg
  | mul {e f : Lin κ} (prod : κ → κ → κ) : Built e → Built f → Built (e.mul prod f)
  | mapKeys {e : Lin κ} (g : κ → κ) : Built e → Built (e.mapKeys g)
  | smul {e : Lin κ} (n d : Int) : n ≠ 0 → d ≠ 0 → Built e → Built (e.smul (Rational.mk2 n d))

section
variable {κ : Type _}

/-- the expression a user would build by adding each term with its coefficient scaled -/
def scaledByAdding [CppLt κ] (e : Lin κ) (c : Rational) : Lin κ :=
  e.foldl (fun r p => Lin.add r p.1 (Rational.mul p.2 c)) []

/-- the specification of the dot product: the sum, over pairs of `==` terms of the two expressions,
of the products of their coefficients -/
def dotSpec [CppEq κ] (e f : Lin κ) : ℚ :=
  (e.map (fun p => (f.map (fun q => if CppEq.eq p.1 q.1 then toRat p.2 * toRat q.2 else 0)).sum)).sum

end
end Wicked
