import Verif.Model.CCEquations
import Verif.Spec.EinsumSem
import Verif.Spec.Antisym
/-! # What a list of many-body equations says about its left-hand side -/
namespace Wicked
open Rational

/-- the element `x` of the left-hand side of the equations: every equation `t += factor * rhs` adds its factor times the sum over the indices that are not on the left (exact arithmetic) -/
def equationsElement {Ω R A : Type} [Inhabited Ω] [DecidableEq Ω] [CommRing R] [Algebra ℚ R] [Ring A] [Algebra R A] (v : OrbSystem Ω R A) (eqs : List Equation) (x : List Ω) : R :=
  (eqs.map (fun q => algebraMap ℚ R (toRat q.factor) * (q.lhs.tensors.map (fun t => q.element v t x)).sum)).sum

/-- the equations of a key, none if the key is missing -/
def equationsOf (m : List (Str × List Equation)) (key : Str) : List Equation := ((m.find? (fun q => decide (q.1 = key))).map Prod.snd).getD []

end Wicked
