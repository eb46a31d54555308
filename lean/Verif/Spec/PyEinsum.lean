import Verif.Spec.EinsumSem
/-! # Reading lines of Python with single quotes

`TARGET += FACTOR * np.einsum('SUBS,...->OUT', NAME["KEY"],...,optimize='optimal')` -/
namespace Wicked

/-- read `NAME["KEY"],...,optimize='optimal')` -/
def readArgs1 : Nat → Str → Option (List (Str × Str))
  | 0, _ => none
  | n + 1, s =>
    if s = "optimize='optimal')".toList then some []
    else do
      let p ← breakOn "[\"".toList s
      let q ← breakOn "\"],".toList p.2
      let l ← readArgs1 n q.2
      return (p.1, q.1) :: l

/-- read a line -/
def readEinsum1 (s : Str) : Option EinsumLine := do
  let p ← breakOn " += ".toList s
  let q ← breakOn " * np.einsum('".toList p.2
  let r ← breakOn "->".toList q.2
  let u ← breakOn "', ".toList r.2
  let args ← readArgs1 (u.2.length + 1) u.2
  return ⟨p.1, q.1, splitComma r.1, u.1, args⟩

/-- value of a decimal literal with a sign `+` or `-` -/
def signedVal (s : Str) : Option ℚ := if s.head? = some '+' then decimalVal s.tail else decimalVal s

/-- the format `{:+.8f}`: a sign, digits, a point and eight digits -/
def IsSigned8 (s : Str) : Prop := (s.head? = some '+' ∧ s.tail.head? ≠ some '-' ∧ IsFixed 8 s.tail) ∨ (s.head? = some '-' ∧ IsFixed 8 s)

end Wicked
