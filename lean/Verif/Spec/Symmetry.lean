import Verif.Model.Index
import Mathlib.GroupTheory.Perm.Fin
import Mathlib.Data.Fintype.Perm
/-! # Reorderings of indices within their spaces -/
namespace Wicked
open Equiv

/-- number of rearrangements of the positions of a list of indices in which every index moves to a position held by an index of the same space -/
def spacePerms (l : List Index) : Nat := Fintype.card {σ : Perm (Fin l.length) // ∀ k, (l.get (σ k)).space = (l.get k).space}

end Wicked
