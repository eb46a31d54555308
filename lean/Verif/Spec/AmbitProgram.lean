import Verif.Spec.AmbitSem
import Verif.Spec.Program
/-! # The program that `compile("ambit")` generates for an expression -/
namespace Wicked
open Rational

/-- Running the ambit statements `text` one after the other from the tensors `s` ends with the tensors `s'`: every statement can be read and is well formed, the factor is a decimal literal, and the
literal times the contraction is added to the block of the tensor on the left. (`s (NAME, KEY) x` is the element `x` of the block `KEY` of the tensor `NAME`.) -/
def AmbitRuns {Ω R : Type} [Inhabited Ω] [DecidableEq Ω] [CommRing R] [Algebra ℚ R] (arr : Str → Str → List Ω → R) (dom : Char → Finset Ω) :
    List Str → (Str × Str → List Ω → R) → (Str × Str → List Ω → R) → Prop
  | [], s, s' => s' = s
  | text :: lines, s, s' => ∃ (L : AmbitLine) (f : ℚ), readAmbit text = some L ∧ L.Accepted ∧ decimalVal L.factor = some f ∧
      AmbitRuns arr dom lines (fun block x => if block = (L.target.1, L.target.2.map AmbitLine.space) then s block x + algebraMap ℚ R f * L.element arr dom x else s block x) s'

/-- A printer of coefficients with six decimals: an optional sign, digits, a point and six digits, with an error of less than a unit of the last digit -/
def PrintsSix (fmt : Rational → Str) : Prop :=
  ∀ c, Canon c → (∃ a b : Str, (fmt c = a ++ '.' :: b ∨ fmt c = '-' :: (a ++ '.' :: b)) ∧ a ≠ [] ∧ b.length = 6 ∧ (∀ x ∈ a, isDigit x = true) ∧
      ∀ x ∈ b, isDigit x = true) ∧
    ∃ x, decimalVal (fmt c) = some x ∧ |x - toRat c| < 1 / 10 ^ 6

end Wicked
