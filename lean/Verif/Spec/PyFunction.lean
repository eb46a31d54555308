import Verif.Spec.Program
/-! # What a generated Python function computes (C82)

A reader for functions of the form
```
def NAME(PARAMETER,...):
    # comment
    VARIABLE = np.zeros((LENGTH,...))
    TARGET += FACTOR * np.einsum(...)
    ...
    return VARIABLE
```
and their meaning. -/
namespace Wicked

/-- split at the line breaks -/
def linesOf : Str → List Str
  | [] => [[]]
  | c :: s => if c = '\n' then [] :: linesOf s else
      match linesOf s with
      | [] => [[c]]
      | h :: l => (c :: h) :: l

/-- the text after a given beginning -/
def stripPrefix (p s : Str) : Option Str := if p.isPrefixOf s then some (s.drop p.length) else none

/-- a function: its name, its parameters, the variable set to zero by the first statement, the lengths of its axes (`none`: a number), the statements
between the first and the last, and the variable that is returned -/
structure PyFunction where
  name : Str
  params : List Str
  var : Str
  dims : Option (List Str)
  body : List Str
  ret : Str
deriving DecidableEq, Repr

/-- read `VARIABLE = 0.0` or `VARIABLE = np.zeros((LENGTH,...))` -/
def readInit (s : Str) : Option (Str × Option (List Str)) := do
  let p ← breakOn " = ".toList s
  if p.2 = "0.0".toList then some (p.1, none)
  else do
    let d ← stripPrefix "np.zeros((".toList p.2
    let q ← breakOn "))".toList d
    if q.2 = [] then some (p.1, some (splitComma q.1)) else none

/-- read a function: all lines after the first are indented by four spaces, comments are skipped -/
def readFunction (text : Str) : Option PyFunction :=
  match linesOf text with
  | [] => none
  | head :: rest => do
    let h ← stripPrefix "def ".toList head
    let p ← breakOn "(".toList h
    let a ← breakOn "):".toList p.2
    let stmts ← rest.mapM (stripPrefix "    ".toList)
    match a.2, stmts.filter (fun s => !decide (s.head? = some '#')) with
    | [], init :: more => do
      let i ← readInit init
      let last ← more.getLast?
      let r ← stripPrefix "return ".toList last
      return ⟨p.1, splitComma a.1, i.1, i.2, more.dropLast, r⟩
    | _, _ => none

section
variable {Ω R : Type} [Inhabited Ω] [DecidableEq Ω] [CommRing R] [Algebra ℚ R]

/-- The text is a function with the given name that sets an array with the given axes to zero, adds to this array only, uses no arrays but those of its parameters,
and returns `result`. -/
def ReturnsArray (arr : Str → Str → List Ω → R) (dom : Char → Finset Ω) (text name : Str) (dims : Option (List Str)) (result : List Ω → R) : Prop :=
  ∃ F, readFunction text = some F ∧ F.name = name ∧ F.dims = dims ∧ F.ret = F.var ∧
    (∀ line ∈ F.body, ∃ L, readEinsum line = some L ∧ L.target = F.var ∧ ∀ a ∈ L.args, a.1 ∈ F.params) ∧
    ∃ s, Runs arr dom F.body (fun _ _ => 0) s ∧ s F.var = result
end

end Wicked
