import Verif.Model.Equation
/-! # Printing and parsing of expressions
(`Expression::str`, `make_expression` of wicked/algebra/expression.cc, `string_to_expr` of wicked/utils.py
and what they call)

Every regular expression involved is replaced by the deterministic left-to-right recogniser of the same
language (`matchTensor`, `matchOp`, `factorCapture`, `normalAt`): in each of them the character class that
is repeated excludes the character that has to follow, so that the greedy match is the only one.  The
search of `std::sregex_iterator` tries the starting positions from left to right and goes on after
the end of a match; this is `findallAux`. -/
namespace Wicked
open CppLt CppEq

/-- `[a-zA-Z0-9]` (the regexes of tensor.cc:183-185) -/
def isAlnum (c : Char) : Bool := isAlpha c || isDigit c

/-- `\w` of a C++ ECMAScript regex in the C locale (the regexes of tensor.cc:183-185 and expression.cc:259-264) -/
def isWord (c : Char) : Bool := isAlnum c || c == '_'

/-! ## Printing -/

/-- `OrbitalSpaceInfo::op_symbol` (orbital_space.cc:14-15, 140-142) -/
def OSI.opSymbol (o : OSI) (pos : Int) : Res Str := do
  let f ← o.fieldType pos
  return if f = .fermion then ['a'] else ['b']

/-- `SQOperator::str` (sqoperator.cc:82-87) -/
def SQOp.str (o : OSI) (a : SQOp) : Res Str := do
  let s ← o.opSymbol a.index.space
  let i ← a.index.str o
  return s ++ (if a.isCre then ['+'] else ['-']) ++ (['('] ++ i ++ [')'])

/-- `Tensor::str` (tensor.cc:100-111) -/
def Tensor.str (o : OSI) (t : Tensor) : Res Str := do
  let u ← t.upper.mapM (m := Except Fault) (Index.str o)
  let l ← t.lower.mapM (m := Except Fault) (Index.str o)
  return t.label ++ ['^', '{'] ++ join [','] u ++ ['}', '_', '{'] ++ join [','] l ++ ['}']

/-- `SymbolicTerm::str` (symbolic_term.cc:373-389) -/
def STerm.str (o : OSI) (t : STerm) : Res Str := do
  let ts ← t.tensors.mapM (m := Except Fault) (Tensor.str o)
  let os ← t.ops.mapM (m := Except Fault) (SQOp.str o)
  let brace := !t.ops.isEmpty && t.normalOrdered
  return join [' '] (ts ++ (if brace then [['{']] else []) ++ os ++ (if brace then [['}']] else []))

/-- the factor of one line of `Expression::str` (expression.cc:98-125); `n` is the line number and `symtermStr`
the printed symbolic term -/
def factorStr (n : Nat) (symtermStr : Str) (c : Rational) : Str :=
  let f := c.str (n != 0)
  if symtermStr.length > 0 then
    if f.length > 1 && f != ['-'] then f ++ [' '] else f
  else
    let f := if f.length == 0 then (if n == 0 then ['1'] else ['+', '1']) else f
    if f == ['-'] then ['-', '1'] else f

/-- one line of `Expression::str` (expression.cc:95-140) -/
def lineStr (o : OSI) (n : Nat) (p : STerm × Rational) : Res Str := do
  let s ← p.1.str o
  return factorStr n s p.2 ++ s

/-- the loop of `Expression::str` (expression.cc:92-141) -/
def linesStr (o : OSI) : Nat → Expr → Res (List Str)
  | _, [] => .ok []
  | n, p :: e => do
    let s ← lineStr o n p
    let r ← linesStr o (n + 1) e
    return s :: r

/-- `Expression::str` (expression.cc:91-143) -/
def Expr.str (o : OSI) (e : Expr) : Res Str := do
  let ls ← linesStr o 0 e
  return join ['\n'] ls

/-! ## Parsing -/

/-- `findall` (helpers.cc:56-72) for a pattern whose matches are never empty; `m` tries to match at the start of
its argument and returns the captured groups and the length of the match.  The first argument counts the
characters of the last match that are still to be skipped. -/
def findallAux (m : Str → Option (List Str × Nat)) : Nat → Str → List Str
  | _, [] => []
  | k + 1, _ :: t => findallAux m k t
  | 0, c :: t =>
    match m (c :: t) with
    | some (caps, n) => caps ++ findallAux m (n - 1) t
    | none => findallAux m 0 t

/-- `findall` (helpers.cc:56-72) -/
def findall (m : Str → Option (List Str × Nat)) (s : Str) : List Str := findallAux m 0 s

/-- matches the literal `lit` at the start of `s` and returns the rest (part of the regexes of tensor.cc:183-185 and expression.cc:259-264) -/
def lit (l s : Str) : Option Str := if l.isPrefixOf s then some (s.drop l.length) else none

/-- `LABEL\^\{UPPER\}_\{LOWER\}` with the repeated class `[a-zA-Z0-9]+` for the label and `cls*` for the two lists
of indices: the three captures and the rest of the string (tensor.cc:183-185) -/
def tensorParts (cls : Char → Bool) (s : Str) : Option (Str × Str × Str × Str) := do
  let label := s.takeWhile isAlnum
  if label.isEmpty then none
  let s ← lit ['^', '{'] (s.dropWhile isAlnum)
  let upper := s.takeWhile cls
  let s ← lit ['}', '_', '{'] (s.dropWhile cls)
  let lower := s.takeWhile cls
  let s ← lit ['}'] (s.dropWhile cls)
  return (label, upper, lower, s)

/-- `tensor_re` of `make_expression` (expression.cc:261), one group: the whole match -/
def matchTensor (s : Str) : Option (List Str × Nat) := do
  let p ← tensorParts (fun c => isWord c || c == ',') s
  let n := s.length - p.2.2.2.length
  return ([s.take n], n)

/-- `SYMBOL[+-]\(\w*\)`, the symbol being one character of the class `sym`: sign, index and the rest (expression.cc:262) -/
def opParts (sym : Char → Bool) (s : Str) : Option (Char × Str × Str) :=
  match s with
  | c :: g :: '(' :: t =>
    if sym c && (g == '+' || g == '-') then do
      let rest ← lit [')'] (t.dropWhile isWord)
      return (g, t.takeWhile isWord, rest)
    else none
  | _ => none

/-- `operator_re` of `make_expression` (expression.cc:262), two groups: the sign and the index -/
def matchOp (s : Str) : Option (List Str × Nat) := do
  let p ← opParts (fun c => c == 'a' || c == 'b') s
  return ([[p.1], p.2.1], s.length - p.2.2.length)

/-- `[+-]?` at the start of a string (expression.cc:263) -/
def optSign : Str → Str
  | '+' :: _ => ['+']
  | '-' :: _ => ['-']
  | _ => []

/-- `\/?` at the start of a string (expression.cc:263) -/
def optSlash : Str → Str
  | '/' :: _ => ['/']
  | _ => []

/-- the group of the first match of `factor_re` (expression.cc:263), which matches every string -/
def factorCapture (s : Str) : Str :=
  let s := s.dropWhile isSpace
  let sign := optSign s
  let s := s.drop sign.length
  let num := s.takeWhile isDigit
  let s := s.dropWhile isDigit
  let slash := optSlash s
  let s := s.drop slash.length
  sign ++ num ++ slash ++ s.takeWhile isDigit

/-- `(?:\s*a[+-]\([\w\d]+\))*\s*\}` : the rest of `normal_ordered_re` (expression.cc:264) after the brace; `n` counts
the operators read so far, of which there must be at least one.  The fuel is the length of the string. -/
def normalRest : Nat → Nat → Str → Bool
  | 0, _, _ => false
  | f + 1, n, s =>
    match opParts (fun c => c == 'a') (s.dropWhile isSpace) with
    | some (_, i, rest) => if i.isEmpty then false else normalRest f (n + 1) rest
    | none => decide (0 < n) && (lit ['}'] (s.dropWhile isSpace)).isSome

/-- `regex_search(s, normal_ordered_re)` (expression.cc:264, 270) -/
def normalSearch : Str → Bool
  | [] => false
  | c :: t => (c == '{' && normalRest (t.length + 1) 0 t) || normalSearch t

/-- the pieces `std::getline(f, s, ',')` returns (helpers.cc:79): the text between commas; a final empty piece is
not returned -/
def getlines : Str → Str → List Str
  | acc, [] => if acc.isEmpty then [] else [acc.reverse]
  | acc, c :: t => if c == ',' then acc.reverse :: getlines [] t else getlines (c :: acc) t

/-- `trim` (helpers.cc:26-43) -/
def trim (s : Str) : Str := ((s.dropWhile isSpace).reverse.dropWhile isSpace).reverse

/-- `split_indices` (helpers.cc:74-85) -/
def splitIndices (s : Str) : List Str := (getlines [] s).map trim

/-- `make_indices_from_str` (index.cc:69-76) -/
def makeIndices (o : OSI) (s : Str) : Res (List Index) := (splitIndices s).mapM (m := Except Fault) (makeIndex o)

/-- `make_tensor_from_str` (tensor.cc:181-194): `regex_match`, so nothing may follow the match -/
def makeTensor (o : OSI) (s : Str) (symm : Symmetry) : Res Tensor :=
  match tensorParts (fun c => isWord c || c == ',' || isSpace c) s with
  | some (label, u, l, []) => do
    let upper ← makeIndices o u
    let lower ← makeIndices o l
    return ⟨label, lower, upper, symm, false⟩
  | _ => .error .throw

/-- the loop over the captured operators (expression.cc:281-286): sign and index alternate -/
def makeOps (o : OSI) : List Str → Res (List SQOp)
  | g :: i :: l => do
    let idx ← makeIndex o i
    let r ← makeOps o l
    return ⟨if g = ['+'] then .creation else .annihilation, idx⟩ :: r
  | [_] => .error .ub
  | [] => .ok []

/-- `make_expression` (expression.cc:249-293) -/
def makeExpression (o : OSI) (s : Str) (symm : Symmetry) : Res Expr :=
  if s.length = 0 then .ok []
  else do
    let tensors ← (findall matchTensor s).mapM (m := Except Fault) (fun t => makeTensor o t symm)
    let ops ← makeOps o (findall matchOp s)
    let factor ← Rational.makeFromStr (factorCapture s)
    return Lin.add [] ⟨normalSearch s, ops, tensors⟩ factor

/-- Python's `s.split("\n")` (utils.py:12); the accumulator holds the current line in reverse -/
def splitLines : Str → Str → List Str
  | acc, [] => [acc.reverse]
  | acc, c :: t => if c == '\n' then acc.reverse :: splitLines [] t else splitLines (c :: acc) t

/-- `string_to_expr` (utils.py:6-14); `expression` is bound with the default symmetry `Antisymmetric`
(expression_api.cc:85-86) -/
def stringToExpr (o : OSI) (s : Str) : Res Expr :=
  (splitLines [] s).foldlM (fun r line => do
    let e ← makeExpression o line .antisymmetric
    return Lin.plus r e) []

end Wicked
