import Verif.Spec.ManyBody
/-! # The coupled-cluster notebooks (C96) -/
namespace Wicked

namespace GenProg
variable {α : Type}

/-- a bound for the number of second-quantized operators of one space in a product of the expression: an operator that creates and annihilates in different spaces has
at most `rank` of them, any other at most `2 * rank` -/
def perSpace (letters : α → Str) : GenProg α → Nat
  | .gen _ rank cre ann => if ∀ c ∈ letters cre, c ∉ letters ann then rank else 2 * rank
  | .plus a b | .minus a b => max (a.perSpace letters) (b.perSpace letters)
  | .scale _ _ a => a.perSpace letters
  | .mul a b | .comm a b => a.perSpace letters + b.perSpace letters
  | .bch a b n => a.perSpace letters + n * b.perSpace letters

/-- every call of `gen_op` of the program makes excitation operators of rank at least one: they create in unoccupied spaces and annihilate in occupied spaces -/
def Excites (o : OSI) (letters : α → Str) : GenProg α → Prop
  | .gen _ rank cre ann => 1 ≤ rank ∧ (∀ c ∈ letters cre, ∀ s ∈ o.spaces, s.label = c → s.spaceType = .unoccupied) ∧ ∀ c ∈ letters ann, ∀ s ∈ o.spaces, s.label = c → s.spaceType = .occupied
  | .plus a b | .minus a b | .mul a b | .comm a b | .bch a b _ => a.Excites o letters ∧ b.Excites o letters
  | .scale _ _ a => a.Excites o letters

end GenProg

/-- the component `"v+ v+ o o"` (here for `n = 2`) as it is written in the notebooks -/
def excitationText (n : Nat) : Str := List.intercalate [' '] (List.replicate n ['v', '+'] ++ List.replicate n ['o'])

/-- the operator expression of the spin-orbital notebooks (examples/numerical/spinorbital-CCSD.ipynb, spinorbital-CCSDT.ipynb):
`Top = w.op("T", ["v+ o", "v+ v+ o o", ...], unique)`, `Hop = gen_op("H", 1, "ov", "ov") + gen_op("H", 2, "ov", "ov")`, `Hbar = w.bch_series(Hop, Top, 4)` -/
def notebookHbar (o : OSI) (ranks : List Nat) (unique : Bool) : Res OpExpr := do
  let Top ← OpExpr.make o ['T'] (ranks.map excitationText) unique
  let H1 ← GenOp.genOp o ['H'] 1 ['o', 'v'] ['o', 'v'] true
  let H2 ← GenOp.genOp o ['H'] 2 ['o', 'v'] ['o', 'v'] true
  return OpExpr.bchSeries (OpExpr.plus H1 H2) Top 4

end Wicked

namespace Wicked
/-! ## The spin-integrated notebooks -/

/-- the calls of `add_space` of spin-integrated-CCSD.ipynb and spin-integrated-CCSDT.ipynb -/
def spinNotebook : List RegOp :=
  [.add 'o' .fermion .occupied ("ijklmn".toList.map (fun c => [c])) [], .add 'v' .fermion .unoccupied ("abcdef".toList.map (fun c => [c])) [],
    .add 'O' .fermion .occupied ("IJKLMN".toList.map (fun c => [c])) [], .add 'V' .fermion .unoccupied ("ABCDEF".toList.map (fun c => [c])) []]

/-- `' '.join(i)` for the `i` in `itertools.product(...)` -/
def joinedProduct : List (List String) → List Str
  | [] => [[]]
  | [l] => l.map String.toList
  | l :: l' :: ls => l.flatMap (fun a => (joinedProduct (l' :: ls)).map (fun w => a.toList ++ ' ' :: w))

/-- the list `Hops`: the components of a Hamiltonian that conserves spin -/
def spinHops : List Str :=
  joinedProduct [["v+", "o+"], ["v", "o"]] ++ joinedProduct [["V+", "O+"], ["V", "O"]] ++
  joinedProduct [["v+", "o+"], ["v+", "o+"], ["v", "o"], ["v", "o"]] ++ joinedProduct [["V+", "O+"], ["V+", "O+"], ["V", "O"], ["V", "O"]] ++
  joinedProduct [["v+", "o+"], ["V+", "O+"], ["v", "o"], ["V", "O"]]

/-- the components of the cluster operator, without and with triple excitations -/
def spinTops (triples : Bool) : List Str :=
  if triples then ["v+ o", "V+ O", "v+ v+ o o", "V+ V+ O O", "V+ v+ O o", "v+ v+ v+ o o o", "V+ V+ V+ O O O", "v+ v+ V+ o o O", "v+ V+ V+ o O O"].map String.toList
  else ["v+ o", "V+ O", "v+ v+ o o", "V+ V+ O O", "V+ v+ O o"].map String.toList

/-- `Top = w.op("T", [...], unique=True)`, `Hop = w.op("H", Hops, unique=True)`, `Hbar = w.bch_series(Hop, Top, 4)` -/
def spinHbar (o : OSI) (triples : Bool) : Res OpExpr := do
  let Top ← OpExpr.make o ['T'] (spinTops triples) true
  let Hop ← OpExpr.make o ['H'] spinHops true
  return OpExpr.bchSeries Hop Top 4

/-- a tensor conserves spin: its elements are zero unless as many of the lower as of the upper orbitals have spin up -/
def ConservesSpin {Ω R : Type} [Zero R] (alpha : Ω → Bool) (T : List Ω → List Ω → R) : Prop := ∀ l u, l.length = u.length → l.countP alpha ≠ u.countP alpha → T l u = 0

end Wicked
