import Verif.Model.Basic
/-!
# `rational` (wicked/helpers/rational.h, rational.cc)

`rational_t` is modelled by unbounded `Int` (the checked 64-bit version is in
`Model/RationalMachine.lean`).
-/
namespace Wicked

/-- `class rational` (rational.h:18-61): two integers.  The constructor that keeps the fields
canonical is `Rational.mk2`; the structure itself does not enforce it, as in C++. -/
structure Rational where
  num : Int
  den : Int
deriving DecidableEq, Repr

namespace Rational

/-- `rational::reduce` (rational.cc:191-203).  `std::gcd` is the non-negative gcd; C++ `/`
truncates. -/
def reduce (r : Rational) : Rational :=
  let g : Int := (Int.gcd r.num r.den : Int)
  if g > 1 then ⟨r.num.tdiv g, r.den.tdiv g⟩ else r

/-- `rational::rational()` (rational.cc:10). -/
def zero : Rational := ⟨0, 1⟩

/-- `rational::rational(int)` and `rational(rational_t)` (rational.cc:12-20). -/
def ofInt (n : Int) : Rational := ⟨n, 1⟩

/-- `rational::rational(numerator, denominator)` (rational.cc:22-28). -/
def mk2 (n d : Int) : Rational :=
  reduce ⟨if d < 0 then -n else n, if d < 0 then -d else d⟩

/-- unary minus (rational.cc:40-42). -/
def neg (r : Rational) : Rational := mk2 (-r.num) r.den

/-- `operator+=` (rational.cc:44-49), also `operator+` (155-158). -/
def add (l r : Rational) : Rational :=
  reduce ⟨r.den * l.num + r.num * l.den, r.den * l.den⟩

/-- `operator-=` (rational.cc:51-56), also `operator-` (160-163). -/
def sub (l r : Rational) : Rational :=
  reduce ⟨r.den * l.num - r.num * l.den, r.den * l.den⟩

/-- `operator*=` (rational.cc:58-63), also `operator*` (165-168). -/
def mul (l r : Rational) : Rational := reduce ⟨l.num * r.num, l.den * r.den⟩

/-- `operator/=` (rational.cc:65-70), also `operator/` (170-173).  Note: no check for a zero
divisor and no sign normalisation. -/
def div (l r : Rational) : Rational := reduce ⟨l.num * r.den, l.den * r.num⟩

/-- `operator==` (rational.cc:175-180). -/
def eq (l r : Rational) : Bool :=
  if l.num == 0 && r.num == 0 then true else l.num == r.num && l.den == r.den

/-- `operator!=` (rational.cc:182-184). -/
def ne (l r : Rational) : Bool := !(eq l r)

/-- `rational::str` (rational.cc:72-102). -/
def str (r : Rational) (sign : Bool) : Str :=
  if r.num == 0 then ['0']
  else
    let s : Str := if sign && decide (r.num > 0) then ['+'] else []
    if r.den == 1 then
      if r.num == -1 then s ++ ['-']
      else if r.num != 1 then s ++ intStr r.num
      else s
    else s ++ intStr r.num ++ ['/'] ++ intStr r.den

/-- Result of matching `^\s*([+-])?(\d*)?(\/)?(\d*)?\s*` (rational.cc:209-218): the captures.
The backtracking matcher is replaced by the deterministic left-to-right recogniser of the
same language; greedy capture of the first digit group makes the captures unique. -/
structure RatMatch where
  minus : Bool
  numStr : Str
  slash : Bool
  denStr : Str

/-- the optional sign group `([+-])?` of the regex (rational.cc:209): (is it '-', rest) -/
def splitSign : Str → Bool × Str
  | '-' :: t => (true, t)
  | '+' :: t => (false, t)
  | t => (false, t)

/-- the optional group `(\/)?` of the regex (rational.cc:209): (present, rest) -/
def splitSlash : Str → Bool × Str
  | '/' :: t => (true, t)
  | t => (false, t)

/-- the regex match of rational.cc:209-210 -/
def matchRat (s : Str) : Option RatMatch :=
  let p := splitSign (s.dropWhile isSpace)
  let q := splitSlash (p.2.dropWhile isDigit)
  if (q.2.dropWhile isDigit).all isSpace then
    some ⟨p.1, p.2.takeWhile isDigit, q.1, q.2.takeWhile isDigit⟩
  else none

/-- `make_rational_from_str` (rational.cc:207-237). -/
def makeFromStr (s : Str) : Res Rational :=
  match matchRat s with
  | none => .error .throw
  | some m => do
    let numerator : Int := if m.minus then -1 else 1
    if m.slash && (m.numStr.isEmpty || m.denStr.isEmpty) then throw .throw
    let numerator ← if m.numStr.isEmpty then pure numerator
                    else do let v ← stoi m.numStr; pure (numerator * v)
    let denominator ← if m.slash && !m.denStr.isEmpty then stoi m.denStr else pure 1
    return mk2 numerator denominator

end Rational
end Wicked
