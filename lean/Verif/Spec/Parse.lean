import Verif.Model.Parse
import Verif.Spec.Lin
/-! # Specification vocabulary for printing and parsing (C57) -/
namespace Wicked

/-- an index the library can spell: its space is registered under a letter and its position fits an `int` -/
def Index.Spellable (o : OSI) (i : Index) : Prop :=
  (∃ l, o.label i.space = .ok l ∧ isAlpha l = true) ∧ 0 ≤ i.pos ∧ i.pos ≤ intMax

/-- an identifier: letters and digits, starting with a letter -/
def IsIdent (s : Str) : Prop := (∃ c t, s = c :: t ∧ isAlpha c = true) ∧ ∀ c ∈ s, (isAlpha c || isDigit c) = true

/-- a term over parsable labels -/
structure STerm.Parsable (o : OSI) (t : STerm) : Prop where
  label : ∀ x ∈ t.tensors, IsIdent x.label
  index : ∀ x ∈ t.tensors, ∀ i ∈ x.upper ++ x.lower, i.Spellable o
  opIndex : ∀ a ∈ t.ops, a.index.Spellable o

/-- an expression over parsable labels, whose coefficients have numerators and denominators that fit an `int` -/
structure Expr.Parsable (o : OSI) (e : Expr) : Prop where
  term : ∀ p ∈ e, p.1.Parsable o
  num : ∀ p ∈ e, p.2.num.natAbs ≤ intMax
  den : ∀ p ∈ e, p.2.den ≤ intMax

/-- the operator acts on a fermionic space -/
def SQOp.Fermionic (o : OSI) (a : SQOp) : Prop := o.fieldType a.index.space = .ok .fermion

/-- everything about the term survives printing: tensors are antisymmetric and not conjugated, and the
label of normal ordering is there only around fermionic operators, of which there is at least one -/
def STerm.Plain (o : OSI) (t : STerm) : Prop :=
  (∀ x ∈ t.tensors, x.symm = .antisymmetric ∧ x.conj = false) ∧
    (t.normalOrdered = true → t.ops ≠ [] ∧ ∀ a ∈ t.ops, a.Fermionic o)

/-- the first line of the printed expression begins with a single digit that touches a tensor label: the first
term has tensors and the coefficient 2, 3, ..., 9 -/
def DigitTouchesLabel (e : Expr) : Prop :=
  ∃ p, e.head? = some p ∧ p.1.tensors ≠ [] ∧ p.2.den = 1 ∧ 2 ≤ p.2.num ∧ p.2.num ≤ 9

end Wicked
