import Verif.Spec.EinsumSem
import Verif.Spec.Fock
import Verif.Spec.Rational
import Verif.Model.Parse
/-! # The program that `compile("einsum")` generates for an expression

What a Python program made of lines `TARGET += FACTOR * np.einsum(...)` does, and the operator that the
array computed for a key of `to_manybody_equation` stands for. -/
namespace Wicked
open Rational

section
variable {Ω R A : Type} [Inhabited Ω] [DecidableEq Ω] [CommRing R]

/-- Running the lines `text` one after the other from the variables `s` ends with the variables `s'`: every line can be
read, numpy accepts the call, the factor is a decimal literal, and the literal times the result of the call is added to the
variable on the left. (`s NAME x` is the element `x` of the variable `NAME`.) -/
def Runs [Algebra ℚ R] (arr : Str → Str → List Ω → R) (dom : Char → Finset Ω) : List Str → (Str → List Ω → R) → (Str → List Ω → R) → Prop
  | [], s, s' => s' = s
  | text :: lines, s, s' => ∃ (L : EinsumLine) (f : ℚ), readEinsum text = some L ∧ L.Accepted ∧ decimalVal L.factor = some f ∧
      Runs arr dom lines (fun name x => if name = L.target then s name x + algebraMap ℚ R f * L.element arr dom x else s name x) s'

/-- the sum of `F [x₁, ..., xₙ]` over all `x₁` in the first set, ..., `xₙ` in the last -/
def sumTuples [AddCommMonoid A] : List (Finset Ω) → (List Ω → A) → A
  | [], F => F []
  | d :: ds, F => ∑ a ∈ d, sumTuples ds (fun l => F (a :: l))

/-- the spaces of the upper indices: the text of the key before the bar -/
def keyUpper (key : Str) : Str := ((breakOn ['|'] key).map Prod.fst).getD []

/-- the spaces of the lower indices: the text of the key after the bar, from right to left -/
def keyLower (key : Str) : Str := (((breakOn ['|'] key).map Prod.snd).getD []).reverse

/-- the operator that an array `r` filed under `key` stands for: the sum over the orbitals `u` of the upper and `l` of the
lower indices of `r[u, l]` times the product `N` (ordinary product or normal product) of the creation operators of `l`, from left to right, and the
annihilation operators of `u`, from right to left -/
def keyOperator [Ring A] [Algebra R A] (dom : Char → Finset Ω) (N : List (SQType × Ω) → A) (key : Str) (r : List Ω → R) : A :=
  sumTuples ((keyUpper key).map dom) (fun u => sumTuples ((keyLower key).map dom) (fun l =>
    r (u ++ l) • N (l.map (fun x => (.creation, x)) ++ u.reverse.map (fun x => (.annihilation, x)))))
end

/-- A term that can be compiled: it has a tensor; the labels of the tensors are made of letters, digits and underscores; all indices are registered
and there are at most 52; the creation operators stand on the left in the order of their spaces, the annihilation operators on the right in
the opposite order; every operator has its own index, which occurs on a tensor. -/
structure STerm.Compilable (o : OSI) (t : STerm) : Prop where
  some : t.tensors ≠ []
  words : ∀ y ∈ t.tensors, ∀ c ∈ y.label, isWord c = true
  registered : ∀ i ∈ t.allIdx, i.Registered o
  letters : t.allIdx.toFinset.card ≤ 52
  creFirst : t.ops = t.ops.filter (·.isCre) ++ t.ops.filter (fun a => !a.isCre)
  cre : (t.ops.filter (·.isCre)).Pairwise (fun a b => a.index.space ≤ b.index.space)
  ann : (t.ops.filter (fun a => !a.isCre)).Pairwise (fun a b => b.index.space ≤ a.index.space)
  own : (t.ops.map SQOp.index).Nodup
  covered : ∀ a ∈ t.ops, ∃ y ∈ t.tensors, a.index ∈ y.upper ++ y.lower

/-- A printer of coefficients with nine decimals: an optional sign, digits, a point and nine digits, with an error of less than a unit of the last
digit -/
def PrintsNine (fmt : Rational → Str) : Prop :=
  ∀ c, Canon c → (∃ a b : Str, (fmt c = a ++ '.' :: b ∨ fmt c = '-' :: (a ++ '.' :: b)) ∧ a ≠ [] ∧ b.length = 9 ∧ (∀ x ∈ a, isDigit x = true) ∧
      ∀ x ∈ b, isDigit x = true) ∧
    ∃ x, decimalVal (fmt c) = some x ∧ |x - toRat c| < 1 / 10 ^ 9

/-- the number that the literal printed for `c` stands for -/
def litVal (fmt : Rational → Str) (c : Rational) : ℚ := (decimalVal (fmt c)).getD 0

/-- the label of a density matrix or cumulant: `gamma1`, `eta1`, `lambda2`, `lambda3`, ... -/
def IsDensityLabel (s : Str) : Prop := s = "gamma1".toList ∨ s = "eta1".toList ∨ ∃ n : Nat, s = "lambda".toList ++ intStr (n : Int)

end Wicked
