import Verif.Model.Operator
import Mathlib.Algebra.BigOperators.Group.List.Defs
/-! # Components of a general operator (C38) -/
namespace Wicked

/-- `f` counts `rank` second-quantized operators that lie in the spaces with the given labels -/
def Spans (o : OSI) (letters : Str) (rank : Nat) (f : Nat → Int) : Prop :=
  (∀ s, 0 ≤ f s) ∧ (∀ s, f s ≠ 0 → ∃ c ∈ letters, o.labelToSpace c = .ok (s : Int)) ∧
  ((List.range o.spaces.length).map f).sum = rank

/-- the component is filled from a single space on both sides: the strings of creation and annihilation labels are the
same although one is sorted up and the other down -/
def SameString (o : OSI) (g : GraphMatrix) : Prop :=
  ∃ s : Nat, ∀ t, g.cre t = g.ann t ∧ (t ≠ s → g.cre t = 0)

end Wicked
