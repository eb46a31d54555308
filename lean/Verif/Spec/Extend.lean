import Verif.Model.Orbital
/-! # Specification vocabulary for registering more spaces (C71) -/
namespace Wicked

/-- the calls are calls of `add_space` only; nothing is said about whether they succeed -/
def OnlyAdds (ops : List RegOp) : Prop := ∀ op ∈ ops, ∃ l f s i e, op = RegOp.add l f s i e

/-- whatever the first call returned, the second call returns as well -/
def StillReturns {α : Type} (before after : Res α) : Prop := ∀ r, before = .ok r → after = .ok r

end Wicked
