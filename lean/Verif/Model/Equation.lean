import Verif.Model.Expression
/-! # Many-body equations (wicked/algebra/equation.cc, `Expression::to_manybody_equation`) -/
namespace Wicked
open CppLt CppEq

/-- `join` (helpers.cc:11-23) -/
def join (sep : Str) : List Str → Str
  | [] => []
  | [a] => a
  | a :: b :: l => a ++ sep ++ join sep (b :: l)

/-- `class Equation` (equation.h:9-51): `lhs_`, `rhs_`, `factor_` -/
structure Equation where
  lhs : STerm
  rhs : STerm
  factor : Rational
deriving DecidableEq, Repr

/-- `result[idx.space()].first += 1` and `.second += 1` of tensor.cc:19, 22 : unchecked access -/
def sigBump (upper : Bool) (c : List (Int × Int)) (s : Int) : Res (List (Int × Int)) :=
  if 0 ≤ s ∧ s.toNat < c.length then
    .ok (c.modify s.toNat (fun p => if upper then (p.1 + 1, p.2) else (p.1, p.2 + 1)))
  else .error .ub

/-- `Tensor::signature` (tensor.cc:15-25): for every space the numbers of upper and of lower indices -/
def Tensor.signature (o : OSI) (t : Tensor) : Res (List (Int × Int)) := do
  let c ← t.upper.foldlM (fun c i => sigBump true c i.space) (List.replicate o.spaces.length (0, 0))
  t.lower.foldlM (fun c i => sigBump false c i.space) c

/-- the loop over the operators of a term (expression.cc:164-171): `lower` and `upper` -/
def splitOps (ops : List SQOp) : List Index × List Index :=
  ops.foldl (fun st a => if a.isCre then (st.1 ++ [a.index], st.2) else (st.1, a.index :: st.2)) ([], [])

/-- the loop over the signature (expression.cc:177-183); `std::string(u, c)` is `u` times the character `c`
(`u` is a count and never negative) -/
def sigStrings (o : OSI) (sig : List (Int × Int)) : Res (Str × Str × Int) :=
  sig.foldlM (fun st ul => do
    let c ← o.label st.2.2
    return (st.1 ++ List.replicate ul.1.toNat c, st.2.1 ++ List.replicate ul.2.toNat c, st.2.2 + 1)) ([], [], 0)

/-- the key built from the signature (expression.cc:175-185) -/
def sigKey (o : OSI) (sig : List (Int × Int)) : Res Str := do
  let p ← sigStrings o sig
  return p.1 ++ ['|'] ++ p.2.1.reverse

/-- the left-hand-side tensor (expression.cc:173) -/
def lhsTensor (label : Str) (t : STerm) : Tensor :=
  ⟨label, (splitOps t.ops).1, (splitOps t.ops).2, .antisymmetric, false⟩

/-- the equation of one term (expression.cc:172-192); a default-constructed `SymbolicTerm` is not labelled
normal ordered -/
def termEquation (label : Str) (t : STerm) (c : Rational) : Equation :=
  ⟨⟨false, [], [lhsTensor label t]⟩, ⟨false, [], t.tensors⟩, c⟩

/-- `Expression::to_manybody_equation` (expression.cc:155-195) -/
def Expr.toManybody (o : OSI) (label : Str) (e : Expr) : Res (SMap Str (List Equation)) :=
  e.foldlM (fun m tc => do
    let sig ← (lhsTensor label tc.1).signature o
    let key ← sigKey o sig
    return m.insert key ((m.find key).getD [] ++ [termEquation label tc.1 tc.2])) []

/-! ## `compile("einsum")` -/

/-- state of the letter allocation: `index_map` (a `std::map<std::string,std::string>`) and `unused_indices`.
All strings stored in either are single characters. (equation.cc:53-76) -/
structure Letters where
  map : SMap Str Char
  unused : List Char
deriving DecidableEq, Repr

/-- the letters of equation.cc:122-126, in the order of the source -/
def allLetters : List Char := "ZYXWVUTSRQPONMLKJIHGFEDCBAzyxwvutsrqponmlkjihgfedcba".toList

/-- the choice of a letter for a new name (equation.cc:60-71): the name itself if it is a single unused character,
otherwise the last unused letter; `back()` of an empty vector is undefined behaviour -/
def pickLetter (s : Str) (unused : List Char) : Res Char :=
  match s with
  | [x] => if x ∈ unused then pure x
           else match unused.getLast? with
             | some y => pure y
             | none => throw .ub
  | _ => match unused.getLast? with
             | some y => pure y
             | none => throw .ub

/-- `get_unique_index` (equation.cc:53-78) -/
def uniqueIndex (s : Str) (st : Letters) : Res (Char × Letters) :=
  match st.map.find s with
  | some c => .ok (c, st)
  | none => do
    let c ← pickLetter s st.unused
    return (c, ⟨st.map.insert s c, st.unused.filter (fun y => y ≠ c)⟩)

/-- the loop of `get_unique_tensor_indices` (equation.cc:80-92) over a list of indices -/
def uniqueIndices (o : OSI) : List Index → Letters → Res (Str × Letters)
  | [], st => .ok ([], st)
  | i :: l, st => do
    let name ← i.latex o
    let r ← uniqueIndex name st
    let r' ← uniqueIndices o l r.2
    return (r.1 :: r'.1, r'.2)

/-- `get_unique_tensor_indices` (equation.cc:80-92): upper indices first -/
def uniqueTensorIndices (o : OSI) (t : Tensor) (st : Letters) : Res (Str × Letters) :=
  uniqueIndices o (t.upper ++ t.lower) st

/-- the loop of equation.cc:128-133 -/
def tensorsIndices (o : OSI) : List Tensor → Letters → Res (List Str × Letters)
  | [], st => .ok ([], st)
  | t :: l, st => do
    let r ← uniqueTensorIndices o t st
    let r' ← tensorsIndices o l r.2
    return (r.1 :: r'.1, r'.2)

/-- the labels of the spaces of the indices of a tensor (equation.cc:108-113, 141-146) -/
def spaceLabels (o : OSI) (t : Tensor) : Res Str :=
  (t.upper ++ t.lower).mapM (m := Except Fault) (fun i => o.label i.space)

/-- one argument of the call (equation.cc:139-149) -/
def einsumArg (o : OSI) (t : Tensor) : Res Str := do
  let l ← spaceLabels o t
  return t.label ++ "[\"".toList ++ l ++ "\"]".toList

/-- `Equation::compile("einsum")` (equation.cc:102-153).  The decimal printing of the factor
(`std::format("{:.9f}", ...)`) is the parameter `fmt`. -/
def Equation.compileEinsum (o : OSI) (fmt : Rational → Str) (q : Equation) : Res Str := do
  match q.lhs.tensors with
  | [] => throw .ub
  | t :: _ =>
    let left ← spaceLabels o t
    let r ← tensorsIndices o q.rhs.tensors ⟨[], allLetters⟩
    let res ← uniqueTensorIndices o t r.2
    let args ← q.rhs.tensors.mapM (m := Except Fault) (einsumArg o)
    return t.label ++ left ++ " += ".toList ++ fmt q.factor ++ " * np.einsum(".toList ++
      join ",".toList (("\"".toList ++ join ",".toList r.1 ++ "->".toList ++ res.1 ++ "\"".toList) :: args) ++
      ",optimize=\"optimal\")".toList

/-! ## `compile("ambit")` -/

/-- `Tensor::compile` (tensor.cc:152-163): the label, and in brackets the names (`Index::compile` = `Index::str`,
index.cc:28) of the upper and lower indices if there are any -/
def Tensor.compile (o : OSI) (t : Tensor) : Res Str := do
  let l ← (t.upper ++ t.lower).mapM (m := Except Fault) (Index.str o)
  return if l.length > 0 then t.label ++ ['['] ++ join [','] l ++ [']'] else t.label

/-- `SymbolicTerm::compile("ambit")` (symbolic_term.cc:421-433): a term with operators raises an exception -/
def STerm.compileAmbit (o : OSI) (t : STerm) : Res Str := do
  let l ← t.tensors.mapM (m := Except Fault) (Tensor.compile o)
  if t.ops.length > 0 then throw .throw
  else return join [' ', '*', ' '] l

/-- `Equation::compile("ambit")` (equation.cc:95-100).  The decimal printing of the factor (`rational::compile`,
rational.cc:148-151: `std::to_string` of a double) is the parameter `fmt`. -/
def Equation.compileAmbit (o : OSI) (fmt : Rational → Str) (q : Equation) : Res Str := do
  let l ← q.lhs.compileAmbit o
  let r ← q.rhs.compileAmbit o
  return join [' ', '*', ' '] [l ++ " += ".toList ++ fmt q.factor, r] ++ [';']

/-- `Equation::compile` (equation.cc:94-157); `fmt6` prints six decimals (`std::to_string`), `fmt9` nine
(`std::format("{:.9f}")`) -/
def Equation.compile (o : OSI) (fmt6 fmt9 : Rational → Str) (format : Str) (q : Equation) : Res Str :=
  if format = "ambit".toList then q.compileAmbit o fmt6
  else if format = "einsum".toList then q.compileEinsum o fmt9
  else .error .throw

end Wicked
