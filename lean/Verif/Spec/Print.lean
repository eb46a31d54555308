import Verif.Model.Print
import Verif.Spec.Lin
import Verif.Spec.Wick
import Verif.Spec.OpMake
/-! # Specification vocabulary for printed operators and operator expressions (C76) -/
namespace Wicked

/-- the labels of the registered spaces are ASCII letters -/
def OSI.LetterLabels (o : OSI) : Prop := ∀ s ∈ o.spaces, isAlpha s.label = true

/-- a label without blanks, line breaks and braces -/
def PlainLabel (s : Str) : Prop := ∀ c ∈ s, c ≠ ' ' ∧ c ≠ '\n' ∧ c ≠ '{' ∧ c ≠ '}'

/-- every operator of the expression can exist while `ns` spaces are registered -/
def OpExpr.AllValid (ns : Nat) (e : OpExpr) : Prop := ∀ t ∈ e, ∀ p ∈ t.1, p.Valid ns

/-- every operator of the expression has a label without blanks, line breaks and braces -/
def OpExpr.PlainLabels (e : OpExpr) : Prop := ∀ t ∈ e, ∀ p ∈ t.1, PlainLabel p.label

end Wicked
