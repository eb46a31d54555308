import Verif.Model.Order
import Verif.Model.Rational
/-! # `Algebra` (wicked/helpers/algebra.hpp) and `add_to_map` (wicked/helpers/helpers.h)

An element of `Algebra<Derived,T,scalar_t>` is the `std::map<T,scalar_t>` it stores. -/
namespace Wicked
open CppLt CppEq

/-- `rational::operator==` (rational.cc:175-180) as the `==` used by containers -/
instance : CppEq Rational := ⟨Rational.eq⟩

/-- `std::map<T, scalar_t>` (helpers/algebra.hpp:20-150) -/
abbrev Lin (κ : Type _) := SMap κ Rational

namespace Lin
variable {κ : Type _} [CppLt κ]

/-- `add_to_map` (helpers.h:57-77); `Algebra::add` (algebra.hpp:33) -/
def add (m : Lin κ) (k : κ) (v : Rational) : Lin κ :=
  if Rational.eq v (Rational.ofInt 0) then m
  else match m.find k with
    | some w =>
      let s := Rational.add w v
      if Rational.eq s (Rational.ofInt 0) then m.erase k else m.insert k s
    | none => m.insert k v

/-- `Algebra::contains` (algebra.hpp:36) -/
def contains (m : Lin κ) (k : κ) : Bool := (m.find k).isSome

/-- `Algebra::is_equal` (algebra.hpp:39): `std::map::operator==`.  `Expression::operator==`
(expression.cc:86-89) is the same comparison. -/
def isEqual [CppEq κ] (m m' : Lin κ) : Bool := SMap.equal m m'

/-- `Algebra::dot` (algebra.hpp:42-51) -/
def dot (m m' : Lin κ) : Rational :=
  m.foldl (fun r p => match m'.find p.1 with
    | some c => Rational.add r (Rational.mul p.2 c)
    | none => r) (Rational.ofInt 0)

/-- the sum under the square root of `norm` (algebra.hpp:54-61), with the conversion to `double`
of each square left out -/
def normSq (m : Lin κ) : Rational :=
  m.foldl (fun r p => Rational.add r (Rational.mul p.2 p.2)) (Rational.ofInt 0)

/-- unary minus (algebra.hpp:64-70) -/
def neg (m : Lin κ) : Lin κ := m.foldl (fun r p => r.add p.1 (Rational.neg p.2)) []

/-- `operator+=` (algebra.hpp:95-100); the Python `a + b` copies `a` first -/
def plus (m m' : Lin κ) : Lin κ := m'.foldl (fun r p => r.add p.1 p.2) m

/-- `operator-=` (algebra.hpp:104-109) -/
def minus (m m' : Lin κ) : Lin κ := m'.foldl (fun r p => r.add p.1 (Rational.neg p.2)) m

/-- `operator*=(const Algebra&)` (algebra.hpp:113-122) for a product that can throw -/
def mulM (f : κ → κ → Res κ) (m m' : Lin κ) : Res (Lin κ) :=
  m.foldlM (fun r p => m'.foldlM (fun r q => do
    let k ← f p.1 q.1
    return Lin.add r k (Rational.mul p.2 q.2)) r) []

/-- `operator*=(const Algebra&)` (algebra.hpp:113-122) for a product that cannot fail -/
def mul (f : κ → κ → κ) (m m' : Lin κ) : Lin κ :=
  m.foldl (fun r p => m'.foldl (fun r q => r.add (f p.1 q.1) (Rational.mul p.2 q.2)) r) []

/-- `operator*=(scalar_t)` (algebra.hpp:126-131) -/
def smul (m : Lin κ) (c : Rational) : Lin κ := m.map (fun p => (p.1, Rational.mul p.2 c))

/-- `operator/=(scalar_t)` (algebra.hpp:134-142) -/
def sdiv (m : Lin κ) (c : Rational) : Res (Lin κ) :=
  if Rational.eq c (Rational.mk2 0 1) then .error .throw
  else .ok (m.map (fun p => (p.1, Rational.div p.2 c)))

/-- the loop `for (e,c) in terms: result.add(f(e), c)` shared by `Expression::adjoint`
(expression.cc:68-74) and `OperatorExpression::adjoint` (operator_expression.h:28-34) -/
def mapKeys (f : κ → κ) (m : Lin κ) : Lin κ := m.foldl (fun r p => r.add (f p.1) p.2) []

end Lin
end Wicked
