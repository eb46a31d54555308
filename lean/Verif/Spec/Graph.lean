import Verif.Spec.Wick
/-! # Specification vocabulary for rearrangements of the operators of a contracted product -/
namespace Wicked

/-- `p` is a permutation of the numbers `0, ..., n-1` -/
def IsPermOf (n : Nat) (p : List Int) : Prop := p.Perm ((List.range n).map (fun (k : Nat) => (k : Int)))

/-- `a` stands before `b` in `p` although it is larger: the two were exchanged -/
def Exchanged (p : List Int) (a b : Int) : Prop := [a, b].Sublist p ∧ b < a

/-- number of second-quantized operators that contraction `e` takes from operator number `A` -/
def legsAt (ns : Nat) (e : EContr) (A : Nat) : Int :=
  ((List.range ns).map (fun s => (gmAt e A).cre s + (gmAt e A).ann s)).sum

/-- a contraction of exactly two second-quantized operators joins operators number `A` and `B` -/
def PairJoined (ns : Nat) (cs : List EContr) (A B : Nat) : Prop :=
  ∃ e ∈ cs, ((List.range e.length).map (legsAt ns e)).sum = 2 ∧ 0 < legsAt ns e A ∧ 0 < legsAt ns e B

/-- product of `(-1)^(n_a n_b)` over all exchanged pairs `a`, `b` of `p` -/
def exchangeSign (n : Int → Int) : List Int → Int
  | [] => 1
  | a :: l => (l.map (fun b => if b < a then (-1) ^ (n a * n b).toNat else 1)).prod * exchangeSign n l

/-- an admissible rearrangement of a contracted product -/
structure Admissible (ns : Nat) (ops : OperatorProduct) (cs : CContr) (g : Wick.Graph) : Prop where
  ops : IsPermOf ops.length g.1
  contr : IsPermOf cs.length g.2
  exch : ∀ a b, Exchanged g.1 a b → ¬ PairJoined ns cs a.toNat b.toNat

end Wicked
