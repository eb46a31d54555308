import Verif.Model.Latex
import Verif.Spec.Fock
/-! # Specification vocabulary for LaTeX output (C70) -/
namespace Wicked

/-- counts braces: the nesting depth after reading the text at depth `n`, if no brace is closed that was not opened -/
def braces : Nat → Str → Option Nat
  | n, [] => some n
  | n, c :: s =>
    if c = '{' then braces (n + 1) s
    else if c = '}' then (match n with | 0 => none | m + 1 => braces m s)
    else braces n s

/-- the braces of the text match -/
def Balanced (s : Str) : Prop := braces 0 s = some 0

/-- the index names the user chose can be printed side by side: they are not empty, contain no space and no line break, their
braces match, and none of them looks like the names `l_{n}` that the library makes up; the labels of the
spaces are neither braces nor blanks -/
structure OSI.LatexNames (o : OSI) : Prop where
  name : ∀ s ∈ o.spaces, ∀ w ∈ s.indices, w ≠ [] ∧ ' ' ∉ w ∧ '\n' ∉ w ∧ Balanced w
  notLib : ∀ s ∈ o.spaces, ∀ w ∈ s.indices, ∀ (c : Char) (n : Int), w ≠ c :: '_' :: '{' :: (intStr n ++ ['}'])
  label : ∀ s ∈ o.spaces, s.label ≠ '{' ∧ s.label ≠ '}' ∧ s.label ≠ ' ' ∧ s.label ≠ '\n'

/-- `label` consists of the letters `sym`, possibly an underscore, and the digits `num` (of which there may be none) -/
def LabelParts (label sym num : Str) : Prop :=
  sym ≠ [] ∧ (∀ c ∈ sym, isAlpha c = true) ∧ (∀ c ∈ num, isDigit c = true) ∧ (label = sym ++ num ∨ label = sym ++ '_' :: num)

/-- the name of a Greek letter -/
def IsGreek (sym : Str) : Prop :=
  sym ∈ ["alpha".toList, "beta".toList, "gamma".toList, "delta".toList, "epsilon".toList, "zeta".toList, "eta".toList,
    "theta".toList, "iota".toList, "kappa".toList, "lambda".toList, "mu".toList, "nu".toList, "xi".toList, "omicron".toList,
    "pi".toList, "rho".toList, "sigma".toList, "tau".toList, "upsilon".toList, "phi".toList, "chi".toList, "psi".toList,
    "omega".toList]

/-- two labels with the same letters that differ at most by an underscore or, for a Greek letter, by the digits -/
def LabelsAlike (a b : Str) : Prop :=
  ∃ sym n m, LabelParts a sym n ∧ LabelParts b sym m ∧ (n = m ∨ IsGreek sym)

/-- the terms agree in everything but conjugation and symmetry of the tensors, the normal-ordered label of a term without
operators, and labels that are alike -/
def STerm.Alike (t u : STerm) : Prop :=
  List.Forall₂ (fun x y => LabelsAlike x.label y.label ∧ x.upper = y.upper ∧ x.lower = y.lower) t.tensors u.tensors ∧
    t.ops = u.ops ∧ (t.ops ≠ [] → t.normalOrdered = u.normalOrdered)

/-- all indices of the term belong to registered spaces -/
def STerm.AllRegistered (o : OSI) (t : STerm) : Prop :=
  (∀ x ∈ t.tensors, ∀ i ∈ x.upper ++ x.lower, i.Registered o) ∧ ∀ a ∈ t.ops, a.index.Registered o

/-- every tensor label is letters, an optional underscore and optional digits -/
def STerm.LatexLabels (t : STerm) : Prop := ∀ x ∈ t.tensors, ∃ sym n, LabelParts x.label sym n

end Wicked
