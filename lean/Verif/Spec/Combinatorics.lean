import Verif.Model.Basic
import Mathlib.Data.List.Basic
/-! # Specification for partitions -/
namespace Wicked

/-- `p` is a partition of `n`: non-increasing positive parts with sum `n`. -/
def IsPartition (n : Int) (p : List Int) : Prop :=
  p.Pairwise (· ≥ ·) ∧ (∀ a ∈ p, 1 ≤ a) ∧ p.sum = n

end Wicked
