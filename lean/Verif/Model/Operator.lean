import Verif.Model.Algebra
import Verif.Model.Orbital
import Verif.Model.Combinatorics
/-!
# Graph matrices, operators, operator products and operator expressions
(wicked/diagrams/graph_matrix.cc, operator.cc, operator_product.cc, operator_expression.cc)

`ns` is `orbital_subspaces->num_spaces()`.  The loops `for s < num_spaces` index an array of 8
entries; the accessors below are total and the model functions that a user calls return
`Fault.ub` when `ns > 8` (see `GraphMatrix.mk2` and C54).
-/
namespace Wicked
open CppLt CppEq

/-- `GraphMatrix::max_spaces_` (graph_matrix.h:16) -/
abbrev maxSpaces : Nat := 8

/-- `class GraphMatrix` (graph_matrix.h:12-76): `std::array<std::pair<int,int>, 8>` -/
structure GraphMatrix where
  el : Vector (Int × Int) maxSpaces
deriving DecidableEq, Repr

namespace GraphMatrix

/-- default constructor: all zeros (graph_matrix.h:75) -/
def zero : GraphMatrix := ⟨Vector.replicate maxSpaces (0, 0)⟩

/-- `elements(space)` (graph_matrix.cc:23-25), total for indices in the array -/
def get (g : GraphMatrix) (s : Nat) : Int × Int := (g.el[s]?).getD (0, 0)

/-- `cre(space)` (graph_matrix.cc:27) -/
def cre (g : GraphMatrix) (s : Nat) : Int := (g.get s).1

/-- `ann(space)` (graph_matrix.cc:29) -/
def ann (g : GraphMatrix) (s : Nat) : Int := (g.get s).2

/-- the array with entry `s` computed by `f s` (graph_matrix.h:17, 75) -/
def tab (f : Nat → Int × Int) : GraphMatrix := ⟨Vector.ofFn (fun i => f i.val)⟩

/-- `set_cre` (graph_matrix.cc:31-33) -/
def setCre (g : GraphMatrix) (s : Nat) (v : Int) : GraphMatrix :=
  tab (fun i => if i = s then (v, g.ann i) else g.get i)

/-- `set_ann` (graph_matrix.cc:35-37) -/
def setAnn (g : GraphMatrix) (s : Nat) (v : Int) : GraphMatrix :=
  tab (fun i => if i = s then (g.cre i, v) else g.get i)

/-- `GraphMatrix(cre, ann)` (graph_matrix.cc:12-17): writes `elements_[i]` and reads `cre[i]`,
`ann[i]` for all `i < num_spaces` without any check. -/
def mk2 (ns : Nat) (cre ann : List Int) : Res GraphMatrix :=
  if ns ≤ maxSpaces ∧ ns ≤ cre.length ∧ ns ≤ ann.length then
    .ok (tab (fun i => if i < ns then (cre.getD i 0, ann.getD i 0) else (0, 0)))
  else .error .ub

/-- `num_ops()` (graph_matrix.cc:41-47): sums over the whole array -/
def numOps (g : GraphMatrix) : Int := g.el.toList.foldl (fun r p => r + (p.1 + p.2)) 0

/-- `num_ops(space)` (graph_matrix.cc:39) -/
def numOpsS (g : GraphMatrix) (s : Nat) : Int := g.cre s + g.ann s

/-- `operator+=` (graph_matrix.cc:61-67) -/
def add (ns : Nat) (g h : GraphMatrix) : GraphMatrix :=
  tab (fun i => if i < ns then (g.cre i + h.cre i, g.ann i + h.ann i) else g.get i)

/-- `operator-=` (graph_matrix.cc:69-75) -/
def sub (ns : Nat) (g h : GraphMatrix) : GraphMatrix :=
  tab (fun i => if i < ns then (g.cre i - h.cre i, g.ann i - h.ann i) else g.get i)

/-- `adjoint` (graph_matrix.cc:77-85) -/
def adjoint (ns : Nat) (g : GraphMatrix) : GraphMatrix :=
  tab (fun i => if i < ns then (g.ann i, g.cre i) else (0, 0))

end GraphMatrix

/-- `operator<` (graph_matrix.cc:49-51): lexicographic comparison of the arrays -/
instance : CppLt GraphMatrix := ⟨fun a b => lt a.el.toList b.el.toList⟩
/-- `operator==` (graph_matrix.cc:53-55) -/
instance : CppEq GraphMatrix := ⟨fun a b => eq a.el.toList b.el.toList⟩

/-- `class Operator` (operator.h): label and graph matrix -/
structure Operator where
  label : Str
  gm : GraphMatrix
deriving DecidableEq, Repr

namespace Operator

/-- `factor` (operator.cc:20-29) -/
def factor (ns : Nat) (p : Operator) : Rational :=
  let r := (List.range ns).foldl (fun r s => Rational.div r (Rational.ofInt (factorial (p.gm.cre s)))) (Rational.ofInt 1)
  (List.range ns).foldl (fun r s => Rational.div r (Rational.ofInt (factorial (p.gm.ann s)))) r

/-- `adjoint` (operator.cc:31-33) -/
def adjoint (ns : Nat) (p : Operator) : Operator := ⟨p.label, p.gm.adjoint ns⟩

/-- `num_ops` (operator.cc:39) -/
def numOps (p : Operator) : Int := p.gm.numOps

/-- `operator<` (operator.cc:41-49) -/
def ltB (a b : Operator) : Bool :=
  if lt a.label b.label then true
  else if lt b.label a.label then false
  else lt a.gm b.gm

/-- `operator==` (operator.cc:51-53) -/
def eqB (a b : Operator) : Bool := eq a.label b.label && eq a.gm b.gm

end Operator

instance : CppLt Operator := ⟨Operator.ltB⟩
instance : CppEq Operator := ⟨Operator.eqB⟩

/-- `do_operators_commute` (operator.cc:88-94) -/
def doOperatorsCommute (ns : Nat) (a b : Operator) : Bool :=
  let nc := (List.range ns).foldl (fun n s => n + (a.gm.ann s * b.gm.cre s + a.gm.cre s * b.gm.ann s)) 0
  nc == 0

/-- `operator_noncommuting_less` (operator.cc:96-102) -/
def operatorNoncommutingLess (ns : Nat) (a b : Operator) : Bool :=
  if doOperatorsCommute ns a b then lt a b else false

/-- `class OperatorProduct` (operator_product.h): a vector of operators -/
abbrev OperatorProduct := List Operator

namespace OperatorProduct

/-- `num_ops` (operator_product.cc:5-11) -/
def numOps (p : OperatorProduct) : Int := p.foldl (fun r a => r + a.numOps) 0

/-- inner loop of `canonicalize` (operator_product.cc:18-23): one left-to-right pass over the first
`k` adjacent pairs; returns the list and the accumulated `nperm`. -/
def pass (ns : Nat) : Nat → OperatorProduct → Int → OperatorProduct × Int
  | k + 1, a :: b :: l, nperm =>
    if operatorNoncommutingLess ns b a then
      let r := pass ns k (a :: l) (nperm + a.numOps * b.numOps)
      (b :: r.1, r.2)
    else
      let r := pass ns k (b :: l) nperm
      (a :: r.1, r.2)
  | _, l, nperm => (l, nperm)

/-- outer loop of `canonicalize` (operator_product.cc:16-24): passes of length
`n-1, n-2, ..., 1` -/
def passes (ns : Nat) : Nat → OperatorProduct → Int → OperatorProduct × Int
  | 0, l, nperm => (l, nperm)
  | k + 1, l, nperm =>
    let r := pass ns (k + 1) l nperm
    passes ns k r.1 r.2

/-- `canonicalize` (operator_product.cc:13-26): new product and sign; C++ `%` truncates, which
makes no difference to the test `== 0`. -/
def canonicalize (ns : Nat) (p : OperatorProduct) : OperatorProduct × Rational :=
  let r := passes ns (p.length - 1) p 0
  (r.1, if r.2.tmod 2 == 0 then Rational.mk2 1 1 else Rational.mk2 (-1) 1)

/-- `operator*` (operator_product.cc:28-37) -/
def mul (l r : OperatorProduct) : OperatorProduct := l ++ r

/-- `Product::adjoint` (product.hpp:31-38) -/
def adjoint (ns : Nat) (p : OperatorProduct) : OperatorProduct := (p.map (Operator.adjoint ns)).reverse

end OperatorProduct

/-- `class OperatorExpression` (operator_expression.h:11-41) -/
abbrev OpExpr := Lin OperatorProduct

namespace OpExpr

/-- `add2` (operator_expression.cc:17-21) when `expr` is a different object than `*this` -/
def add2 (e f : OpExpr) (c : Rational) : OpExpr :=
  f.foldl (fun r p => Lin.add r p.1 (Rational.mul c p.2)) e

/-- `add2` (operator_expression.cc:17-21) called with `expr` being the same object: the range-for
walks over the map that `add_to_map` modifies.  `todo` is what the iterator has still to visit
(entries not yet visited still have their old coefficient).  Erasing the visited element
invalidates the iterator, so the increment that follows is undefined behaviour. -/
def add2Loop (c : Rational) : OpExpr → OpExpr → Res OpExpr
  | [], cur => .ok cur
  | (k, v) :: todo, cur =>
    let cur' := Lin.add cur k (Rational.mul c v)
    if Lin.contains cur' k then add2Loop c todo cur' else .error .ub

/-- `e.add2(e, c)` (helpers/algebra.hpp: add2, called with the object itself) -/
def add2Self (e : OpExpr) (c : Rational) : Res OpExpr := add2Loop c e e

/-- `canonicalize` (operator_expression.cc:23-31) -/
def canonicalize (ns : Nat) (e : OpExpr) : OpExpr :=
  e.foldl (fun r p =>
    let c := OperatorProduct.canonicalize ns p.1
    Lin.add r c.1 (Rational.mul c.2 p.2)) []

/-- `operator*` (operator_expression.cc:46-50) -/
def mul (a b : OpExpr) : OpExpr := Lin.mul OperatorProduct.mul a b

/-- `operator+` (operator_expression.cc:52-56) -/
def plus (a b : OpExpr) : OpExpr := Lin.plus a b

/-- `operator-` (operator_expression.cc:58-62) -/
def minus (a b : OpExpr) : OpExpr := Lin.minus a b

/-- `adjoint` (operator_expression.h:28-34) -/
def adjoint (ns : Nat) (e : OpExpr) : OpExpr := Lin.mapKeys (OperatorProduct.adjoint ns) e

/-- `commutator` (operator_expression.cc:98-101) -/
def commutator (a b : OpExpr) : OpExpr := minus (mul a b) (mul b a)

/-- the Python `commutator(*args)` (api/operator_api.cc:62-78) -/
def commutatorN : List OpExpr → OpExpr
  | [] => []
  | a :: l => l.foldl commutator a

/-- loop of `bch_series` (operator_expression.cc:109-114) for `k = k0+1, ..., k0+n` -/
def bchLoop (b : OpExpr) : Nat → Nat → OpExpr → OpExpr → OpExpr
  | _, 0, result, _ => result
  | k0, n + 1, result, temp =>
    let comm := Lin.smul (commutator temp b) (Rational.mk2 1 ((k0 + 1 : Nat) : Int))
    bchLoop b (k0 + 1) n (plus result comm) comm

/-- `bch_series` (operator_expression.cc:103-117) -/
def bchSeries (a b : OpExpr) (n : Int) : OpExpr := bchLoop b 0 n.toNat (plus [] a) a

/-- `findall(s, ([a-zA-Z][+^]?))` (operator_expression.cc:76): the matches, as (letter, has a suffix) -/
def findOps : Str → List (Char × Bool)
  | [] => []
  | [c] => if isAlpha c then [(c, false)] else []
  | c :: d :: l =>
    if isAlpha c then
      if d == '+' || d == '^' then (c, true) :: findOps l else (c, false) :: findOps (d :: l)
    else findOps (d :: l)
termination_by s => s.length

/-- `v[space] += 1` where `space` comes from `label_to_space`: unchecked access (operator_expression.cc:68-117) -/
def bump (v : List Int) (s : Int) : Res (List Int) :=
  if 0 ≤ s ∧ s.toNat < v.length then .ok (v.modify s.toNat (· + 1)) else .error .ub

/-- counts of one component (operator_expression.cc:77-87) -/
def countOps (o : OSI) (l : List (Char × Bool)) : Res (List Int × List Int) :=
  l.foldlM (fun st e => do
    let s ← o.labelToSpace e.1
    if e.2 then do let c ← bump st.1 s; return (c, st.2)
    else do let a ← bump st.2 s; return (st.1, a))
    (List.replicate o.spaces.length 0, List.replicate o.spaces.length 0)

/-- `make_diag_operator_expression` (operator_expression.cc:69-96), Python `op` -/
def make (o : OSI) (label : Str) (components : List Str) (unique : Bool) : Res OpExpr :=
  components.foldlM (fun r s => do
    let ca ← countOps o (findOps s)
    let g ← GraphMatrix.mk2 o.spaces.length ca.1 ca.2
    let op : Operator := ⟨label, g⟩
    if unique && Lin.contains r [op] then return r
    return Lin.add r [op] (Rational.mk2 1 1)) []

end OpExpr
end Wicked
