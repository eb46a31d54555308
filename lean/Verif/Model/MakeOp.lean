import Verif.Model.Operator
import Verif.Model.Expression
/-! # `operator_expr` (wicked/algebra/expression.cc: make_operator_expr) -/
namespace Wicked
open CppLt CppEq

/-- a character matched by the default regex `[\s,]` of `split` (helpers.h) -/
def isSep (c : Char) : Bool := isSpace c || c == ','

/-- the tokens after the first separator: every maximal run of non-separators (helpers.cc:46-54).  The suffix
after the last separator is a token only if it is not empty. -/
def splitRest (s : Str) : List Str :=
  match s with
  | [] => []
  | c :: l => (c :: l.takeWhile (fun x => !isSep x)) :: splitRest ((l.dropWhile (fun x => !isSep x)).dropWhile isSep)
termination_by s.length
decreasing_by
  have h1 := (List.dropWhile_sublist (l := l) (fun x => !isSep x)).length_le
  have h2 := (List.dropWhile_sublist (l := l.dropWhile (fun x => !isSep x)) isSep).length_le
  simp only [List.length_cons]
  omega

/-- `split(s)` with the regex `[\s,]+` (helpers.cc:46-54), `std::sregex_token_iterator` with submatch -1: the text
before the first separator (empty if the string starts with one), then the runs between separators; a string
without separators is its own only token, also when it is empty. -/
def split (s : Str) : List Str :=
  s.takeWhile (fun x => !isSep x) :: splitRest ((s.dropWhile (fun x => !isSep x)).dropWhile isSep)

/-- `class Term` (term.h:9-36): a coefficient and the `SymbolicTerm` it derives from -/
structure CTerm where
  coefficient : Rational
  base : STerm

/-- `s[0]`; reading position `size()` of a `const std::string` gives the null character (expression.cc:200-293) -/
def firstChar (s : Str) : Char := s.headD '\x00'

/-- `v[space]` with unchecked access (expression.cc:200-293) -/
def vecGet (v : List Int) (s : Int) : Res Int :=
  if 0 ≤ s then match v[s.toNat]? with
    | some x => .ok x
    | none => .error .ub
  else .error .ub

/-- `v[space] = x` with unchecked access (expression.cc:200-293) -/
def vecSet (v : List Int) (s : Int) (x : Int) : Res (List Int) :=
  if 0 ≤ s ∧ s.toNat < v.length then .ok (v.set s.toNat x) else .error .ub

/-- state of the second loop of expression.cc:222-233: `cre_count`, `ann_count`, `cre`, `ann` -/
structure MakeState where
  creCount : List Int
  annCount : List Int
  cre : List Index
  ann : List Index

/-- the first loop (expression.cc:212-215): `ann_count` -/
def annCounts (o : OSI) (toks : List Str) : Res (List Int) :=
  toks.foldlM (fun a s => do
    let space ← o.labelToSpace (firstChar s)
    let n ← vecGet a space
    vecSet a space (n + 1)) (List.replicate o.spaces.length 0)

/-- body of the second loop (expression.cc:221-232): a token of two characters is a creation operator -/
def makeStep (o : OSI) (st : MakeState) (s : Str) : Res MakeState := do
  let space ← o.labelToSpace (firstChar s)
  if s.length = 2 then
    let n ← vecGet st.creCount space
    let c ← vecSet st.creCount space (n + 1)
    return { st with creCount := c, cre := st.cre ++ [⟨space, n⟩] }
  else
    let n ← vecGet st.annCount space
    let a ← vecSet st.annCount space (n - 1)
    return { st with annCount := a, ann := st.ann ++ [⟨space, n - 1⟩] }

/-- the term of one component (expression.cc:206-243) -/
def componentTerm (o : OSI) (label : Str) (s : Str) (normalOrdered : Bool) (symmetry : Symmetry) (coefficient : Rational) : Res CTerm := do
  let toks := split s
  let a ← annCounts o toks
  let st ← toks.foldlM (makeStep o) ⟨List.replicate o.spaces.length 0, a, [], []⟩
  return ⟨coefficient, ⟨normalOrdered,
    st.cre.map (fun i => ⟨.creation, i⟩) ++ st.ann.map (fun i => ⟨.annihilation, i⟩),
    [⟨label, st.cre, st.ann.reverse, symmetry, false⟩]⟩⟩

/-- `make_operator_expr` (expression.cc:201-247), Python `operator_expr`.  `result.add(term)` resolves to
`Algebra::add(const SymbolicTerm &, scalar_t = 1)` (algebra.hpp:33): the `Term` is converted to its base class, its
coefficient is not used and the default argument 1 is added. -/
def operatorExpr (o : OSI) (label : Str) (components : List Str) (normalOrdered : Bool) (symmetry : Symmetry)
    (coefficient : Rational) : Res Expr :=
  components.foldlM (fun (r : Expr) s => do
    let t ← componentTerm o label s normalOrdered symmetry coefficient
    return Lin.add r t.base (Rational.mk2 1 1)) []

end Wicked
