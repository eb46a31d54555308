import Verif.Spec.PyEinsum
import Verif.Spec.Program
/-! # The program that the Python function `compile_einsum` generates for an expression -/
namespace Wicked
open Rational

/-- Running the lines `text` of Python one after the other from the variables `s` ends with the variables `s'`: every line can be read, numpy accepts the call, the factor is a decimal literal with a
sign, and the literal times the result of the call is added to the variable on the left. (`s NAME x` is the element `x` of the variable `NAME`; a number has the element `[]` only.) -/
def Py1Runs {Ω R : Type} [Inhabited Ω] [DecidableEq Ω] [CommRing R] [Algebra ℚ R] (arr : Str → Str → List Ω → R) (dom : Char → Finset Ω) :
    List Str → (Str → List Ω → R) → (Str → List Ω → R) → Prop
  | [], s, s' => s' = s
  | text :: lines, s, s' => ∃ (L : EinsumLine) (f : ℚ), readEinsum1 text = some L ∧ L.Accepted ∧ signedVal L.factor = some f ∧
      Py1Runs arr dom lines (fun name x => if name = L.target then s name x + algebraMap ℚ R f * L.element arr dom x else s name x) s'

/-- A printer of coefficients with a sign and eight decimals (`{:+.8f}`), with an error of less than a unit of the last digit -/
def PrintsEight (fmt : Rational → Str) : Prop :=
  ∀ c, Canon c → IsSigned8 (fmt c) ∧ ∃ x, signedVal (fmt c) = some x ∧ |x - toRat c| < 1 / 10 ^ 8

/-- The value of the literal printed for a coefficient -/
def signedLit (fmt : Rational → Str) (c : Rational) : ℚ := (signedVal (fmt c)).getD 0

end Wicked
