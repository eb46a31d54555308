import Verif.Spec.Equation
import Verif.Spec.WickSum
import Mathlib.Algebra.Algebra.Rat
/-! # What a line of Python with `np.einsum` computes

A reader for lines `TARGET += FACTOR * np.einsum("SUBS,...->OUT",NAME["KEY"],...,optimize="optimal")` and the
meaning of the call, written from the numpy documentation and without reference to the code that
generates such lines. -/
namespace Wicked

/-- the text before and after the first occurrence of `sep` -/
def breakOn (sep : Str) : Str → Option (Str × Str)
  | [] => if sep = [] then some ([], []) else none
  | c :: s => if sep.isPrefixOf (c :: s) then some ([], (c :: s).drop sep.length)
      else (breakOn sep s).map (fun p => (c :: p.1, p.2))

/-- split at the commas -/
def splitComma : Str → List Str
  | [] => [[]]
  | c :: s => if c = ',' then [] :: splitComma s else
      match splitComma s with
      | [] => [[c]]
      | h :: l => (c :: h) :: l

/-- a line of Python: the variable that is incremented, the literal, the subscripts of the operands, those of the
result, and the operands `NAME["KEY"]` -/
structure EinsumLine where
  target : Str
  factor : Str
  subs : List Str
  out : Str
  args : List (Str × Str)
deriving DecidableEq, Repr

/-- the end of the call -/
def einsumTail : Str := ",optimize=\"optimal\")".toList

/-- read `,NAME["KEY"],...,optimize="optimal")` -/
def readArgs : Nat → Str → Option (List (Str × Str))
  | 0, _ => none
  | n + 1, s =>
    if s = einsumTail then some []
    else if s.head? = some ',' then do
      let p ← breakOn "[\"".toList s.tail
      let q ← breakOn "\"]".toList p.2
      let l ← readArgs n q.2
      return (p.1, q.1) :: l
    else none

/-- read a line -/
def readEinsum (s : Str) : Option EinsumLine := do
  let p ← breakOn " += ".toList s
  let q ← breakOn " * np.einsum(\"".toList p.2
  let r ← breakOn "->".toList q.2
  let u ← breakOn "\"".toList r.2
  let args ← readArgs (u.2.length + 1) u.2
  return ⟨p.1, q.1, splitComma r.1, u.1, args⟩

/-- value of a decimal literal `[-]ddd.ddd` -/
def decimalVal (s : Str) : Option ℚ :=
  match breakOn ['.'] (if s.head? = some '-' then s.tail else s) with
  | some (a, b) =>
    if a ≠ [] ∧ b ≠ [] ∧ a.all isDigit ∧ b.all isDigit then
      some ((if s.head? = some '-' then -1 else 1) * ((digitsVal a : ℚ) + (digitsVal b : ℚ) / 10 ^ b.length))
    else none
  | none => none

namespace EinsumLine

/-- all axes of all operands: the letter of the axis and the space it runs over (a letter of the key) -/
def axes (L : EinsumLine) : List (Char × Char) :=
  (L.subs.zip L.args).flatMap (fun p => p.1.zip p.2.2)

/-- the call is accepted: there is an operand, every operand has its subscripts, one per axis, the axes with the same letter
run over the same space, the letters of the result are different and occur in an operand -/
structure Accepted (L : EinsumLine) : Prop where
  some : L.args ≠ []
  operands : L.subs.length = L.args.length
  ranks : ∀ p ∈ L.subs.zip L.args, p.1.length = p.2.2.length
  letters : ∀ p ∈ L.axes, isAlpha p.1 = true
  same : ∀ p ∈ L.axes, ∀ q ∈ L.axes, p.1 = q.1 → p.2 = q.2
  out_nodup : L.out.Nodup
  out_mem : ∀ c ∈ L.out, c ∈ L.axes.map Prod.fst

/-- the space over which a letter runs -/
def spaceOf (L : EinsumLine) (c : Char) : Char := ((L.axes.find? (fun p => p.1 = c)).map Prod.snd).getD ' '

variable {Ω R : Type} [Inhabited Ω] [DecidableEq Ω] [CommRing R]

/-- the element `x` of the result of the call: the sum over all values of the letters (those of the result are fixed by
`x`) of the product of the elements of the operands. `arr NAME KEY` are the elements of `NAME["KEY"]`,
`dom` the range of an axis. -/
def element (arr : Str → Str → List Ω → R) (dom : Char → Finset Ω) (L : EinsumLine) (x : List Ω) : R :=
  sumOver (L.axes.map Prod.fst).toFinset (fun c => dom (L.spaceOf c)) (fun τ =>
    if L.out.map τ = x then ((L.subs.zip L.args).map (fun p => arr p.2.1 p.2.2 (p.1.map τ))).prod else 0)

end EinsumLine

section
variable {Ω R A : Type} [Inhabited Ω] [DecidableEq Ω] [CommRing R]

/-- What an equation `t += factor * rhs` says about the element `x` of `t` (upper orbitals first), without the
factor: the sum over all orbitals of the indices, those that are on the left being fixed by `x`. -/
def Equation.element [Ring A] [Algebra R A] (v : OrbSystem Ω R A) (t : Tensor) (q : Equation) (x : List Ω) : R :=
  sumOver (einsumIndices t q).toFinset (fun i => v.dom i.space) (fun σ =>
    if (t.upper ++ t.lower).map σ = x then (q.rhs.tensors.map (fun y => v.T y.label (y.lower.map σ) (y.upper.map σ))).prod else 0)

/-- the operator that an equation `t += factor * rhs` stands for: the sum over the orbitals of the indices on the
left of the element times the product `N` (ordinary product or normal product) of the creation operators of the lower indices, from
left to right, and the annihilation operators of the upper indices, from right to left -/
def Equation.operatorValue [Ring A] [Algebra R A] (v : OrbSystem Ω R A) (N : List (SQType × Ω) → A) (t : Tensor) (q : Equation) : A :=
  sumOver (t.upper ++ t.lower).toFinset (fun i => v.dom i.space) (fun σ =>
    q.element v t ((t.upper ++ t.lower).map σ) •
      N (t.lower.map (fun i => (.creation, σ i)) ++ t.upper.reverse.map (fun i => (.annihilation, σ i))))

/-- value of a term whose operators are multiplied with the product `N` -/
def OrbSystem.valueWith [Ring A] [Algebra R A] (v : OrbSystem Ω R A) (N : List (SQType × Ω) → A) (t : STerm) : A :=
  sumOver t.allIdx.toFinset (fun i => v.dom i.space) (fun σ =>
    (t.tensors.map (fun x => v.T x.label (x.lower.map σ) (x.upper.map σ))).prod • N (t.ops.map (fun a => (a.type, σ a.index))))
end

/-- the arrays hold the tensors of the equation, under the names that the code uses: `arr LABEL KEY` is the tensor
`LABEL` with the axes of the upper indices first and `KEY` the labels of their spaces; and `dom c` are the
orbitals of the space labelled `c` -/
structure Stores {Ω R A : Type} [CommRing R] [Ring A] [Algebra R A] (o : OSI) (v : OrbSystem Ω R A) (q : Equation) (arr : Str → Str → List Ω → R) (dom : Char → Finset Ω) : Prop where
  arr : ∀ y ∈ q.rhs.tensors, ∀ l u, l.length = y.lower.length → u.length = y.upper.length → arr y.label (spaceText o y) (u ++ l) = v.T y.label l u
  dom : ∀ (n : Nat) s, o.spaces[n]? = some s → dom s.label = v.dom n

/-- the format `{:.nf}`: an optional sign, digits, a point and `n` digits -/
def IsFixed (n : Nat) (s : Str) : Prop :=
  ∃ a b : Str, (s = a ++ '.' :: b ∨ s = '-' :: (a ++ '.' :: b)) ∧ a ≠ [] ∧ b.length = n ∧ (∀ c ∈ a, isDigit c = true) ∧ ∀ c ∈ b, isDigit c = true

/-- the format `{:.9f}`: an optional sign, digits, a point and nine digits -/
abbrev IsFixed9 (s : Str) : Prop := IsFixed 9 s

end Wicked
