import Verif.Model.Term
import Verif.Model.Algebra
/-! # Expressions (wicked/algebra/expression.cc, expression_normal_order.cc) -/
namespace Wicked
open CppLt CppEq

/-- `class Expression` (expression.h:13-66): `Algebra<Expression, SymbolicTerm, scalar_t>` -/
abbrev Expr := Lin STerm

namespace Expr

/-- `Expression::canonicalize` (expression.cc:56-66) -/
def canonicalize (o : OSI) (e : Expr) : Res Expr :=
  e.foldlM (fun r p => do
    let c ← STerm.canonicalize o p.1
    return Lin.add r c.1 (Rational.mul c.2 p.2)) []

/-- `Expression::adjoint` (expression.cc:68-74) -/
def adjoint (e : Expr) : Expr := Lin.mapKeys STerm.adjoint e

/-- `Expression::reindex` (expression.cc:76-84): builds a local map and never stores it, so the
object is returned unchanged. -/
def reindex (_ : IndexMap) (e : Expr) : Expr := e

/-- the local map `reindexed_terms` of expression.cc:77-82 -/
def reindexedTerms (m : IndexMap) (e : Expr) : Expr := Lin.mapKeys (STerm.reindex m) e

/-- `operator*=` (algebra.hpp:113-122) with the product of symbolic terms -/
def mul (a b : Expr) : Res Expr := Lin.mulM STerm.mul a b

/-- `Expression::is_vacuum_normal_ordered` (expression_normal_order.cc:5-13) -/
def isVacuumNormalOrdered (e : Expr) : Bool := e.all (fun p => p.1.isVacuumNormalOrdered)

/-- `Expression::vacuum_normal_ordered` (expression_normal_order.cc:15-33) -/
def vacuumNormalOrdered (o : OSI) (onlySame : Bool) (e : Expr) : Res Expr :=
  if e.any (fun p => p.1.normalOrdered) then .error .throw
  else e.foldlM (fun r p => do
    let l ← STerm.vacuumNormalOrder o onlySame p.1
    return l.foldl (fun r q => Lin.add r q.1 (Rational.mul p.2 q.2)) r) []

end Expr
end Wicked
