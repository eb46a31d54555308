import Verif.Spec.EinsumSem
/-! # What a line of the ambit tensor language computes

A reader for lines `NAME[i,j] += FACTOR * NAME[..] * NAME[..];` and their meaning: indices that are not on the left are
summed over. Written without reference to the code that generates such lines. -/
namespace Wicked

/-- split at every ` * ` -/
def splitStar : Str → List Str
  | [] => [[]]
  | ' ' :: '*' :: ' ' :: s => [] :: splitStar s
  | c :: s =>
    match splitStar s with
    | [] => [[c]]
    | h :: l => (c :: h) :: l

/-- read `NAME[i,j,...]` (or `NAME` for a scalar) -/
def readTensor (s : Str) : Option (Str × List Str) :=
  match breakOn ['['] s with
  | none => if s = [] then none else some (s, [])
  | some (n, r) => if n = [] ∨ r.getLast? ≠ some ']' then none else some (n, splitComma r.dropLast)

/-- a line: the tensor that is incremented, the literal, the tensors that are multiplied -/
structure AmbitLine where
  target : Str × List Str
  factor : Str
  args : List (Str × List Str)
deriving DecidableEq, Repr

/-- read a line -/
def readAmbit (s : Str) : Option AmbitLine := do
  let p ← breakOn " += ".toList s
  if p.2.getLast? ≠ some ';' then none
  else
    match splitStar p.2.dropLast with
    | [] => none
    | [_] => none
    | f :: l =>
      let t ← readTensor p.1
      let a ← l.mapM readTensor
      return ⟨t, f, a⟩

namespace AmbitLine

/-- all index names on the right -/
def names (L : AmbitLine) : List Str := L.args.flatMap Prod.snd

/-- the first letter of an index name: the space that it runs over -/
def space (n : Str) : Char := n.headD ' '

/-- the line is well formed: the indices on the left are different, and all of them occur on the right -/
structure Accepted (L : AmbitLine) : Prop where
  some : L.args ≠ []
  out_nodup : L.target.2.Nodup
  out_mem : ∀ n ∈ L.target.2, n ∈ L.names

variable {Ω R : Type} [Inhabited Ω] [DecidableEq Ω] [CommRing R]

/-- what is added (before multiplication with the literal) to the element `x` of the tensor on the left: the sum over all values
of the indices (those on the left are fixed by `x`) of the product of the elements. `arr NAME KEY` is the block `KEY` (one letter per index)
of the tensor `NAME`, `dom` the range of the indices of a space. -/
def element (arr : Str → Str → List Ω → R) (dom : Char → Finset Ω) (L : AmbitLine) (x : List Ω) : R :=
  sumOver L.names.toFinset (fun n => dom (space n)) (fun τ =>
    if L.target.2.map τ = x then (L.args.map (fun p => arr p.1 (p.2.map space) (p.2.map τ))).prod else 0)

end AmbitLine
end Wicked
