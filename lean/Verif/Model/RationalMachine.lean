import Verif.Model.Rational
/-!
# `rational` in the build without boost: `rational_t = long long int` (rational.h:13-15)

Every intermediate value of the C++ expressions is checked against the range of a signed
64-bit integer; leaving it is undefined behaviour.
-/
namespace Wicked

/-- signed overflow check for `long long int` (rational.h: `rational_t`) -/
def chk64 (z : Int) : Res Int :=
  if -9223372036854775808 ≤ z ∧ z ≤ 9223372036854775807 then .ok z else .error .ub

namespace Rational

/-- `rational::reduce` (rational.cc:191-203) on 64-bit integers.  `std::gcd` is undefined when
the absolute value of an argument is not representable. -/
def reduceM (n d : Int) : Res Rational := do
  let _ ← chk64 (-n)
  let _ ← chk64 (-d)
  return reduce ⟨n, d⟩

/-- `operator+=` (rational.cc:44-49), intermediate products and sum checked. -/
def addM (l r : Rational) : Res Rational := do
  let t1 ← chk64 (r.den * l.num)
  let t2 ← chk64 (r.num * l.den)
  let n ← chk64 (t1 + t2)
  let d ← chk64 (r.den * l.den)
  reduceM n d

/-- `operator-=` (rational.cc:51-56). -/
def subM (l r : Rational) : Res Rational := do
  let t1 ← chk64 (r.den * l.num)
  let t2 ← chk64 (r.num * l.den)
  let n ← chk64 (t1 - t2)
  let d ← chk64 (r.den * l.den)
  reduceM n d

/-- `operator*=` (rational.cc:58-63). -/
def mulM (l r : Rational) : Res Rational := do
  let n ← chk64 (l.num * r.num)
  let d ← chk64 (l.den * r.den)
  reduceM n d

/-- `operator/=` (rational.cc:65-70). -/
def divM (l r : Rational) : Res Rational := do
  let n ← chk64 (l.num * r.den)
  let d ← chk64 (l.den * r.num)
  reduceM n d

end Rational
end Wicked
