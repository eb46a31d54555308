import Verif.Spec.Gno
import Verif.Spec.GenOp
import Verif.Spec.Program
import Verif.Spec.Lin
import Verif.Model.GenOp
import Verif.Model.Parse
/-! # Many-body operators over sets of orbitals (C93)

What `gen_op` means, and programs built from it, without reference to the orbital spaces: an `n`-body operator is a sum
over all `n`-tuples of orbitals. -/
namespace Wicked

section
variable {Ω R B : Type} [DecidableEq Ω] [CommRing R] [Ring B] [Algebra R B] [Algebra ℚ B]

/-- the `n`-body operator `1/(n!)² ∑_{p ∈ Cⁿ} ∑_{q ∈ Aⁿ} T(p; q) N[a†_{p₁} ... a†_{p_n} a_{q_n} ... a_{q₁}]` -/
def manyBody (T : List Ω → List Ω → R) (N : List (SQType × Ω) → B) (n : Nat) (C A : Finset Ω) : B :=
  ((1 : ℚ) / (n.factorial * n.factorial)) •
    ∑ p ∈ Fintype.piFinset (fun _ : Fin n => C), ∑ q ∈ Fintype.piFinset (fun _ : Fin n => A),
      T (List.ofFn p) (List.ofFn q) • N ((List.ofFn p).map (fun x => (.creation, x)) ++ ((List.ofFn q).map (fun x => (.annihilation, x))).reverse)

/-- the orbitals of the spaces with the given labels -/
def labelledOrbs (v : OrbSystem Ω R B) (o : OSI) (letters : Str) : Finset Ω :=
  letters.toFinset.biUnion (fun c => match o.labelToSpace c with | .ok s => v.dom s | .error _ => ∅)
end

/-- Python programs that build an operator expression from calls of `gen_op`; the sets of orbitals have names in `α` -/
inductive GenProg (α : Type) where
  | gen (label : Str) (rank : Nat) (cre ann : α)
  | plus (a b : GenProg α)
  | minus (a b : GenProg α)
  | scale (num den : Int) (a : GenProg α)
  | mul (a b : GenProg α)
  | comm (a b : GenProg α)
  | bch (a b : GenProg α) (n : Nat)

namespace GenProg
variable {α : Type}

/-- the expression that the program builds if the sets of orbitals are given as strings of space labels -/
def run (o : OSI) (letters : α → Str) : GenProg α → Res OpExpr
  | .gen label rank cre ann => GenOp.genOp o label rank (letters cre) (letters ann) true
  | .plus a b => do return OpExpr.plus (← a.run o letters) (← b.run o letters)
  | .minus a b => do return OpExpr.minus (← a.run o letters) (← b.run o letters)
  | .scale n d a => do return Lin.smul (← a.run o letters) (Rational.mk2 n d)
  | .mul a b => do return OpExpr.mul (← a.run o letters) (← b.run o letters)
  | .comm a b => do return OpExpr.commutator (← a.run o letters) (← b.run o letters)
  | .bch a b n => do return OpExpr.bchSeries (← a.run o letters) (← b.run o letters) n

/-- numbers are not divided by zero or multiplied by zero -/
def NonZero : GenProg α → Prop
  | .gen .. => True
  | .plus a b | .minus a b | .mul a b | .comm a b | .bch a b _ => a.NonZero ∧ b.NonZero
  | .scale n d a => n ≠ 0 ∧ d ≠ 0 ∧ a.NonZero

/-- a bound for the number of second-quantized operators in a product -/
def numOps : GenProg α → Nat
  | .gen _ rank _ _ => 2 * rank
  | .plus a b | .minus a b => max a.numOps b.numOps
  | .scale _ _ a => a.numOps
  | .mul a b | .comm a b => a.numOps + b.numOps
  | .bch a b n => a.numOps + n * b.numOps

/-- the largest rank of an operator -/
def maxRank : GenProg α → Nat
  | .gen _ rank _ _ => rank
  | .plus a b | .minus a b | .mul a b | .comm a b | .bch a b _ => max a.maxRank b.maxRank
  | .scale _ _ a => a.maxRank

/-- the labels of the operators -/
def labels : GenProg α → List Str
  | .gen label _ _ _ => [label]
  | .plus a b | .minus a b | .mul a b | .comm a b | .bch a b _ => a.labels ++ b.labels
  | .scale _ _ a => a.labels

/-- the labels of the creation spaces of the operators of rank three and higher -/
def bigCre (letters : α → Str) : GenProg α → Str
  | .gen _ rank cre _ => if rank ≤ 2 then [] else letters cre
  | .plus a b | .minus a b | .mul a b | .comm a b | .bch a b _ => a.bigCre letters ++ b.bigCre letters
  | .scale _ _ a => a.bigCre letters

/-- the labels of the annihilation spaces of the operators of rank three and higher -/
def bigAnn (letters : α → Str) : GenProg α → Str
  | .gen _ rank _ ann => if rank ≤ 2 then [] else letters ann
  | .plus a b | .minus a b | .mul a b | .comm a b | .bch a b _ => a.bigAnn letters ++ b.bigAnn letters
  | .scale _ _ a => a.bigAnn letters

/-- no operator of rank three or higher creates in a space in which an operator of rank three or higher annihilates: programs with operators of
rank one and two, and of coupled-cluster theory with one- and two-body operators in the Hamiltonian and excitations of any rank -/
def NoTriple (letters : α → Str) (P : GenProg α) : Prop := ∀ c ∈ P.bigCre letters, c ∉ P.bigAnn letters

variable {Ω R B : Type} [DecidableEq Ω] [CommRing R] [Ring B] [Algebra R B] [Algebra ℚ B]

/-- `[[...[a,b],...],b]`, `k` times -/
def nestedComm (a b : B) : Nat → B
  | 0 => a
  | k + 1 => nestedComm a b k * b - b * nestedComm a b k

/-- the operator the program stands for: no spaces, only sets `S` of orbitals -/
def meaning (T : Str → List Ω → List Ω → R) (N : List (SQType × Ω) → B) (S : α → Finset Ω) : GenProg α → B
  | .gen label rank cre ann => manyBody (T label) N rank (S cre) (S ann)
  | .plus a b => a.meaning T N S + b.meaning T N S
  | .minus a b => a.meaning T N S - b.meaning T N S
  | .scale n d a => ((n : ℚ) / d) • a.meaning T N S
  | .mul a b => a.meaning T N S * b.meaning T N S
  | .comm a b => a.meaning T N S * b.meaning T N S - b.meaning T N S * a.meaning T N S
  | .bch a b n => ∑ k ∈ Finset.range (n + 1), ((1 : ℚ) / k.factorial) • nestedComm (a.meaning T N S) (b.meaning T N S) k

end GenProg

/-- The strings `letters a` are labels of different registered spaces, written with letters, which together hold the orbitals in `S a`; spaces have no orbital in common. -/
structure Names {α Ω R B : Type} [DecidableEq Ω] [CommRing R] [Ring B] [Algebra R B] (o : OSI) (v : OrbSystem Ω R B) (letters : α → Str) (S : α → Finset Ω) : Prop where
  nodup : ∀ a, (letters a).Nodup
  alpha : ∀ a, ∀ c ∈ letters a, isAlpha c = true ∧ c ∈ o.spaces.map (·.label)
  orbs : ∀ a, labelledOrbs v o (letters a) = S a
  disjoint : ∀ s s' : Nat, s < o.spaces.length → s' < o.spaces.length → s ≠ s' → ∀ x ∈ v.dom s, x ∉ v.dom s'

end Wicked
