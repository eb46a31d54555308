import Verif.Model.Rational
import Mathlib.Data.Rat.Defs
import Mathlib.Algebra.Order.Field.Rat
/-!
# Specification of rationals

A `rational` object *represents* the Mathlib rational number `num / den`; it is *canonical*
when the denominator is positive and the fraction is in lowest terms.
-/
namespace Wicked.Rational

/-- the number a `rational` object represents -/
def toRat (r : Rational) : ℚ := (r.num : ℚ) / (r.den : ℚ)

/-- lowest terms with a positive denominator -/
def Canon (r : Rational) : Prop := 0 < r.den ∧ Int.gcd r.num r.den = 1

instance (r : Rational) : Decidable (Canon r) := inferInstanceAs (Decidable (_ ∧ _))

/-- The grammar of C05: `ws* sign? digits* ws*` or `ws* sign? digits+ '/' digits+ ws*`, where the
value read is `± numerator / denominator` and a missing numerator counts as 1. -/
inductive Parses : Str → Int → Int → Prop
  | int (ws1 ns ws2 : Str) (sgn : Str) (σ : Int)
      (h1 : ∀ c ∈ ws1, isSpace c = true) (h2 : ∀ c ∈ ws2, isSpace c = true)
      (hs : sgn = [] ∧ σ = 1 ∨ sgn = ['+'] ∧ σ = 1 ∨ sgn = ['-'] ∧ σ = -1)
      (hn : ∀ c ∈ ns, isDigit c = true) :
      Parses (ws1 ++ sgn ++ ns ++ ws2) (σ * (if ns = [] then 1 else (digitsVal ns : Int))) 1
  | frac (ws1 ns ds ws2 : Str) (sgn : Str) (σ : Int)
      (h1 : ∀ c ∈ ws1, isSpace c = true) (h2 : ∀ c ∈ ws2, isSpace c = true)
      (hs : sgn = [] ∧ σ = 1 ∨ sgn = ['+'] ∧ σ = 1 ∨ sgn = ['-'] ∧ σ = -1)
      (hn : ∀ c ∈ ns, isDigit c = true) (hn' : ns ≠ [])
      (hd : ∀ c ∈ ds, isDigit c = true) (hd' : ds ≠ []) :
      Parses (ws1 ++ sgn ++ ns ++ ['/'] ++ ds ++ ws2) (σ * (digitsVal ns : Int)) (digitsVal ds)

end Wicked.Rational
