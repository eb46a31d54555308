import Verif.Model.Parse
/-! # LaTeX output (`latex()` of rational, Tensor, SQOperator, SymbolicTerm, Term and Expression) -/
namespace Wicked

/-- `rational::latex` (rational.cc:114-148, the branch `USE_BOOST_1024_INT`) -/
def Rational.latex (r : Rational) (first : Bool) : Str :=
  if r.num == 0 then ['0']
  else if r.den == 1 then
    if r.num == 1 then ['+']
    else if r.num == -1 then ['-']
    else (if first then [] else if decide (r.num > 0) then ['+'] else []) ++ intStr r.num
  else
    (if decide (r.num > 0) then ['+'] else ['-']) ++
      ("\\frac{".toList ++ intStr (Int.ofNat r.num.natAbs) ++ ['}', '{'] ++ intStr r.den ++ ['}'])

/-- `[_]?` at the start of a string (tensor.cc:126): the rest -/
def dropUnderscore : Str → Str
  | '_' :: t => t
  | t => t

/-- the regex `([a-zA-Z]+)[_]?(\d+)?` of `Tensor::latex` (tensor.cc:126): captured letters and digits.  `regex_match`
has to match the whole label; the greedy letters are the only possible ones because neither `_` nor a digit is a letter.
A group that does not take part in the match is the empty string. -/
def matchLabel (s : Str) : Option (Str × Str) :=
  let sym := s.takeWhile isAlpha
  let d := dropUnderscore (s.dropWhile isAlpha)
  if !sym.isEmpty && d.all isDigit then some (sym, d) else none

/-- the list `greek` of `Tensor::latex` (tensor.cc:132-136) -/
def greekNames : List Str :=
  ["alpha".toList, "beta".toList, "gamma".toList, "delta".toList, "epsilon".toList,
   "zeta".toList, "eta".toList, "theta".toList, "iota".toList, "kappa".toList,
   "lambda".toList, "mu".toList, "nu".toList, "xi".toList, "omicron".toList,
   "pi".toList, "rho".toList, "sigma".toList, "tau".toList, "upsilon".toList,
   "phi".toList, "chi".toList, "psi".toList, "omega".toList]

/-- the printed form of a label (tensor.cc:137-144): `prefix + symbol + subscript + "}"` -/
def labelLatex (sym raw : Str) : Str :=
  let isGreek := greekNames.contains sym
  let pre : Str := if isGreek then ['{', '\\'] else ['{']
  let sub : Str := if isGreek then [] else if raw.length == 0 then [] else ['_', '{'] ++ raw ++ ['}']
  pre ++ sym ++ sub ++ ['}']

/-- `Tensor::latex` (tensor.cc:113-147) -/
def Tensor.latex (o : OSI) (t : Tensor) : Res Str := do
  let u ← t.upper.mapM (m := Except Fault) (Index.latex o)
  let l ← t.lower.mapM (m := Except Fault) (Index.latex o)
  match matchLabel t.label with
  | none => .error .throw
  | some (sym, raw) =>
    return labelLatex sym raw ++ ['^', '{'] ++ join [' '] u ++ ['}', '_', '{'] ++ join [' '] l ++ ['}']

/-- `SQOperator::latex` (sqoperator.cc:89-94) -/
def SQOp.latex (o : OSI) (a : SQOp) : Res Str := do
  let s ← o.opSymbol a.index.space
  let i ← a.index.latex o
  return "\\hat{".toList ++ s ++ ['}'] ++ (if a.isCre then ['^'] else ['_']) ++ (['{'] ++ i ++ ['}'])

/-- `SymbolicTerm::is_creation_then_annihilation` (symbolic_term.cc:32-37): `std::is_sorted` with a comparator under
which creation operators come first, i.e. no annihilation operator is followed directly by a creation operator -/
def isCreThenAnn : List SQOp → Bool
  | a :: b :: l => !(!a.isCre && b.isCre) && isCreThenAnn (b :: l)
  | _ => true

/-- the operators of `SymbolicTerm::latex` (symbolic_term.cc:399-418): the strings pushed -/
def opsLatex (o : OSI) (ops : List SQOp) : Res (List Str) :=
  if isCreThenAnn ops then do
    let cre ← (ops.filter SQOp.isCre).mapM (m := Except Fault) (fun a => a.index.latex o)
    let ann ← (ops.filter (fun a => !a.isCre)).mapM (m := Except Fault) (fun a => a.index.latex o)
    return ["\\hat{a}^{".toList ++ join [' '] cre ++ ['}', '_', '{'] ++ join [' '] ann.reverse ++ ['}']]
  else ops.mapM (m := Except Fault) (SQOp.latex o)

/-- `SymbolicTerm::latex` (symbolic_term.cc:391-423) -/
def STerm.latex (o : OSI) (t : STerm) : Res Str := do
  let ts ← t.tensors.mapM (m := Except Fault) (Tensor.latex o)
  if t.ops.isEmpty then return join [' '] ts
  else do
    let os ← opsLatex o t.ops
    return join [' '] (ts ++ (if t.normalOrdered then [['\\', '{']] else []) ++ os ++
      (if t.normalOrdered then [['\\', '}']] else []))

/-- `Term::latex` (term.cc:43-45) -/
def termLatex (o : OSI) (c : Rational) (t : STerm) : Res Str := do
  let s ← t.latex o
  return c.latex true ++ [' '] ++ s

/-- the loop of `Expression::latex` (expression.cc:147-151) -/
def linesLatex (o : OSI) : Bool → Expr → Res (List Str)
  | _, [] => .ok []
  | first, p :: e => do
    let s ← p.1.latex o
    let r ← linesLatex o false e
    return (p.2.latex first ++ [' '] ++ s) :: r

/-- `Expression::latex` (expression.cc:145-153) -/
def Expr.latex (o : OSI) (sep : Str) (e : Expr) : Res Str := do
  let ls ← linesLatex o true e
  return join sep ls

/-- the default separator (expression.h:35): a space, two backslashes, a space and a line break -/
def latexSep : Str := [' ', '\\', '\\', ' ', '\n']

end Wicked
