import Verif.Model.Operator
import Verif.Model.MakeOp
import Verif.Model.Parse
/-! # Printed forms of operators, operator expressions, terms and equations; `diag_operator`
(`str()` of wicked/diagrams/operator.cc, operator_expression.cc, wicked/algebra/term.cc and equation.cc) -/
namespace Wicked

/-- the loop over the creation operators of `Operator::str` (operator.cc:66-71): spaces in increasing order.  The
label of a space is only asked for when the count is positive; for a registered space asking for it has no effect. -/
def creTokens (o : OSI) (g : GraphMatrix) : Res (List Str) := do
  let l ← (List.range o.spaces.length).mapM (m := Except Fault) (fun (i : Nat) => do
    let c ← o.label i
    return List.replicate (g.cre i).toNat [c, '+'])
  return l.flatten

/-- the loop over the annihilation operators (operator.cc:73-76): spaces in decreasing order -/
def annTokens (o : OSI) (g : GraphMatrix) : Res (List Str) := do
  let l ← (List.range o.spaces.length).reverse.mapM (m := Except Fault) (fun (i : Nat) => do
    let c ← o.label i
    return List.replicate (g.ann i).toNat [c])
  return l.flatten

/-- the strings that `Operator::str` joins (operator.cc:59-78); with more than 8 spaces the loops read outside the array
of the graph matrix -/
def Operator.tokens (o : OSI) (p : Operator) : Res (List Str) := do
  if maxSpaces < o.spaces.length then throw .ub
  let c ← creTokens o p.gm
  let a ← annTokens o p.gm
  let f := p.factor o.spaces.length
  return (if Rational.eq f (Rational.ofInt 1) then [] else [f.str false]) ++ [p.label, ['{']] ++ c ++ a ++ [['}']]

/-- `Operator::str` (operator.cc:59-81) -/
def Operator.str (o : OSI) (p : Operator) : Res Str := do
  let l ← p.tokens o
  return join [' '] l

/-- one line of `OperatorExpression::str` (operator_expression.cc:36-40) -/
def opLine (o : OSI) (p : OperatorProduct × Rational) : Res Str := do
  let l ← p.1.mapM (m := Except Fault) (Operator.str o)
  return l.foldl (fun s t => s ++ ' ' :: t) (p.2.str true)

/-- `OperatorExpression::str` (operator_expression.cc:33-44) -/
def OpExpr.str (o : OSI) (e : OpExpr) : Res Str := do
  let l ← e.mapM (m := Except Fault) (opLine o)
  return join ['\n'] l

/-- the counting loops of `make_diag_operator` (operator.cc:107-115) -/
def countLabels (o : OSI) (l : List Char) : Res (List Int) :=
  l.foldlM (fun v c => do
    let s ← o.labelToSpace c
    OpExpr.bump v s) (List.replicate o.spaces.length 0)

/-- `make_diag_operator` (operator.cc:104-118), Python `diag_operator` -/
def makeDiagOperator (o : OSI) (label : Str) (cre ann : List Char) : Res Operator := do
  let c ← countLabels o cre
  let a ← countLabels o ann
  let g ← GraphMatrix.mk2 o.spaces.length c a
  return ⟨label, g⟩

/-- `Term::str` (term.cc:30-42) -/
def CTerm.str (o : OSI) (t : CTerm) : Res Str := do
  let s ← t.base.str o
  let c := t.coefficient.str false
  if s = [] ∧ c = [] then return ['1']
  else if s = [] ∧ c ≠ [] then return c
  else if s ≠ [] ∧ c = [] then return s
  else return c ++ [' '] ++ s

/-- `Equation::str` (equation.cc:33-40) and `Equation::latex` (equation.cc:42) -/
def Equation.str (o : OSI) (q : Equation) : Res Str := do
  let l ← q.lhs.str o
  let r ← q.rhs.str o
  return join [' '] [l, ['+', '='], q.factor.str false, r]

/-- `Equation::operator==` (equation.cc:28-31) -/
def Equation.eqv (a b : Equation) : Bool :=
  CppEq.eq a.lhs b.lhs && CppEq.eq a.rhs b.rhs && Rational.eq a.factor b.factor

/-- `Equation::rhs_expression` (equation.cc:22-26) -/
def Equation.rhsExpression (q : Equation) : Expr := Lin.add [] q.rhs q.factor

end Wicked
