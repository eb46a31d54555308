import Verif.Model.Orbital
import Verif.Model.Combinatorics
/-! # Orbital indices (wicked/algebra/index.h, index.cc) -/
namespace Wicked

/-- `class Index` (index.h:25-66): `std::pair<int,int>` (space, position). -/
structure Index where
  space : Int
  pos : Int
deriving DecidableEq, Repr

namespace Index

/-- `Index::operator<` (index.cc:16-18): `std::pair` comparison. -/
def lt (a b : Index) : Bool := decide (a.space < b.space) || (!decide (b.space < a.space) && decide (a.pos < b.pos))

/-- `Index::str` (index.cc:20-22). -/
def str (o : OSI) (i : Index) : Res Str := do
  let l ← o.label i.space
  return l :: intStr i.pos

/-- `Index::latex` (index.cc:24-26). -/
def latex (o : OSI) (i : Index) : Res Str := o.indexLabel i.space i.pos

end Index

/-- the regex `([a-zA-Z])[_]?(\d+)` of index.cc:58: captured letter and digits -/
def matchIndex (s : Str) : Option (Char × Str) :=
  match s with
  | [] => none
  | c :: t =>
    if isAlpha c then
      let d := match t with
        | '_' :: t' => t'
        | t' => t'
      if !d.isEmpty && d.all isDigit then some (c, d) else none
    else none

/-- `make_index_from_str` (index.cc:56-67). -/
def makeIndex (o : OSI) (s : Str) : Res Index :=
  match matchIndex s with
  | none => .error .throw
  | some (c, d) => do
    let space ← o.labelToSpace c
    let p ← stoi d
    return ⟨space, p⟩

end Wicked
