import Verif.Model.Wick
/-!
# Cumulants of a term

The labels that Wick's theorem gives to the tensors it creates: a one-body density or hole density is
`gamma1` or `eta1`, a `j`-body cumulant, `j ≥ 2`, is `lambda` followed by the digits of `j`.
-/
namespace Wicked

/-- `l` is the label of a `j`-body cumulant -/
def CumulantLabel (j : Int) (l : Str) : Prop :=
  (j = 1 ∧ (l = "gamma1".toList ∨ l = "eta1".toList)) ∨ (2 ≤ j ∧ l = "lambda".toList ++ intStr j)

/-- the term has a tensor that is labelled as a cumulant of more than `k` bodies -/
def STerm.CumulantAbove (k : Int) (t : STerm) : Prop := ∃ x ∈ t.tensors, ∃ j, k < j ∧ CumulantLabel j x.label

end Wicked
