import Verif.Model.Parse
import Verif.Model.MakeOp
/-! # Terms, tensors and expressions built call by call (wicked/algebra/symbolic_term.cc, term.cc, tensor.cc:166-179, the Python API) -/
namespace Wicked
open CppLt CppEq

/-- the calls that change a `SymbolicTerm` (api/term_api.cc:14-24) -/
inductive TermCall where
  | addOp (op : SQOp)
  | addOps (ops : List SQOp)
  | addTensor (t : Tensor)
  | setOps (ops : List SQOp)
  | setNormalOrdered (b : Bool)
deriving DecidableEq, Repr

/-- `SymbolicTerm::SymbolicTerm()` (symbolic_term.cc:12; the default of `normal_ordered_` is in symbolic_term.h) -/
def STerm.new : STerm := ⟨false, [], []⟩

/-- `SymbolicTerm::add(const SQOperator &)` (symbolic_term.cc:42) -/
def STerm.addOp (t : STerm) (op : SQOp) : STerm := { t with ops := t.ops ++ [op] }

/-- `SymbolicTerm::add`, `set`, `set_normal_ordered` (symbolic_term.cc:20, 38-55) -/
def TermCall.step (t : STerm) : TermCall → STerm
  | .addOp op => t.addOp op
  | .addOps ops => ops.foldl STerm.addOp t
  | .addTensor x => { t with tensors := t.tensors ++ [x] }
  | .setOps ops => { t with ops := ops }
  | .setNormalOrdered b => { t with normalOrdered := b }

/-- a term built by a sequence of calls (api/term_api.cc:14-24) -/
def buildTerm (cs : List TermCall) : STerm := cs.foldl TermCall.step STerm.new

/-- the calls that change a `Term` (api/term_api.cc:34-39) -/
inductive CTermCall where
  | base (c : TermCall)
  | set (c : Rational)
deriving DecidableEq, Repr

/-- `Term::set` (term.cc:24) and the inherited calls -/
def CTermCall.step (t : CTerm) : CTermCall → CTerm
  | .base c => { t with base := c.step t.base }
  | .set c => { t with coefficient := c }

/-- `Term()` (term.cc:7; the default of `coefficient_` is in term.h) -/
def CTerm.new : CTerm := ⟨Rational.mk2 1 1, STerm.new⟩

/-- `Term(const SymbolicTerm &)` (term.cc:14) -/
def CTerm.ofSymbolic (t : STerm) : CTerm := ⟨Rational.mk2 1 1, t⟩

/-- a `Term` built by a sequence of calls (api/term_api.cc:34-39) -/
def buildCTerm (t : CTerm) (cs : List CTermCall) : CTerm := cs.foldl CTermCall.step t

/-- the three kinds of `+=` of `Expression` (api/expression_api.cc:42-65) -/
inductive ExprCall where
  | term (t : CTerm)
  | pair (t : STerm) (c : Rational)
  | symbolic (t : STerm)

/-- `lhs += ...` (api/expression_api.cc:42-65, algebra.hpp:87-91); `symterm()` (term.cc:26-28) copies the three members -/
def ExprCall.step (e : Expr) : ExprCall → Expr
  | .term t => Lin.add e ⟨t.base.normalOrdered, t.base.ops, t.base.tensors⟩ t.coefficient
  | .pair t c => Lin.add e t c
  | .symbolic t => Lin.add e t (Rational.ofInt 1)

/-- an expression built by a sequence of `+=` (api/expression_api.cc:42-65) -/
def buildExpr (cs : List ExprCall) : Expr := cs.foldl ExprCall.step []

/-- `make_tensor` (tensor.cc:166-179), Python `tensor(label, lower, upper, symmetry)` -/
def makeTensorL (o : OSI) (label : Str) (lower upper : List Str) (symm : Symmetry) : Res Tensor := do
  let l ← lower.mapM (m := Except Fault) (makeIndex o)
  let u ← upper.mapM (m := Except Fault) (makeIndex o)
  return ⟨label, l, u, symm, false⟩

/-- `make_sqoperator` (sqoperator.cc:123-125), Python `cre(s)`, `ann(s)` -/
def makeSQOp (o : OSI) (s : Str) (type : SQType) : Res SQOp := do
  let i ← makeIndex o s
  return ⟨type, i⟩

end Wicked
