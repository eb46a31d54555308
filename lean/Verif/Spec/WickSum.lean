import Verif.Spec.Slots
import Verif.Spec.OrbitalSum
import Mathlib.Data.Finset.Powerset
import Mathlib.Data.Nat.Factorial.Basic
/-! # Wick's theorem as a sum over sets of contractions

The right-hand side of Wick's theorem, written down without reference to the code: a sum over the
orbitals of all second-quantized operators of the product (`Slot`s) and over all sets of pairwise disjoint
contractions of these operators. -/
namespace Wicked

/-- sum of `F` over all ways to choose for every `i ∈ S` an element of `d i` (the value of the assignment
outside `S` is immaterial) -/
def sumOver {ι Ω A : Type} [DecidableEq ι] [Inhabited Ω] [AddCommMonoid A] (S : Finset ι) (d : ι → Finset Ω)
    (F : (ι → Ω) → A) : A :=
  ∑ σ ∈ Fintype.piFinset (fun i : {i // i ∈ S} => d i.1), F (fun i => if h : i ∈ S then σ ⟨i, h⟩ else default)

/-- A contraction: operators of one space `s`, taken from at least two factors of the product.
* occupied: a creation operator and an annihilation operator standing in a factor further right;
* unoccupied: an annihilation operator and a creation operator standing in a factor further right;
* general: `k` creation and `k` annihilation operators, `1 ≤ k ≤ maxCumulant`. -/
def IsContraction (o : OSI) (maxCumulant : Int) (b : Finset Slot) : Prop :=
  ∃ s : Nat, s < o.spaces.length ∧ (∀ x ∈ b, x.space = s) ∧
    ((o.spaceType s = .ok .occupied ∧ ∃ c a : Slot, b = {c, a} ∧ c.cre = true ∧ a.cre = false ∧ c.op < a.op) ∨
     (o.spaceType s = .ok .unoccupied ∧ ∃ a c : Slot, b = {a, c} ∧ a.cre = false ∧ c.cre = true ∧ a.op < c.op) ∨
     (o.spaceType s = .ok .general ∧
        (b.filter (fun x => x.cre = true)).card = (b.filter (fun x => x.cre = false)).card ∧
        1 ≤ (b.filter (fun x => x.cre = true)).card ∧ ((b.filter (fun x => x.cre = true)).card : Int) ≤ maxCumulant ∧
        ∃ x ∈ b, ∃ y ∈ b, x.op ≠ y.op))

/-- A scheme: a set of pairwise disjoint contractions of the operators of the product that leaves between
`minrank` and `maxrank` operators uncontracted. -/
def IsScheme (o : OSI) (maxCumulant : Int) (ops : OperatorProduct) (minrank maxrank : Int) (S : Finset (Finset Slot)) : Prop :=
  (∀ b ∈ S, b ⊆ (slots o.spaces.length ops).toFinset) ∧
  (∀ b ∈ S, IsContraction o maxCumulant b) ∧
  (∀ b ∈ S, ∀ b' ∈ S, b ≠ b' → Disjoint b b') ∧
  minrank ≤ ((slots o.spaces.length ops).length : Int) - ((∑ b ∈ S, b.card : Nat) : Int) ∧
  ((slots o.spaces.length ops).length : Int) - ((∑ b ∈ S, b.card : Nat) : Int) ≤ maxrank

open Classical in
/-- all schemes -/
noncomputable def schemes (o : OSI) (maxCumulant : Int) (ops : OperatorProduct) (minrank maxrank : Int) : Finset (Finset (Finset Slot)) :=
  (slots o.spaces.length ops).toFinset.powerset.powerset.filter (IsScheme o maxCumulant ops minrank maxrank)

/-- the creation operators of a contraction, from left to right -/
def creOf (L : List Slot) (b : Finset Slot) : List Slot := L.filter (fun x => decide (x ∈ b) && x.cre)
/-- its annihilation operators, from left to right -/
def annOf (L : List Slot) (b : Finset Slot) : List Slot := L.filter (fun x => decide (x ∈ b) && !x.cre)
/-- the operators that are left over, from left to right -/
def leftOver (L : List Slot) (S : Finset (Finset Slot)) : List Slot := L.filter (fun x => decide (∀ b ∈ S, x ∉ b))

/-- the order in which the operators of a contraction are written: pairs as they stand in the product,
larger contractions with the creation operators first -/
def conOrder (L : List Slot) (b : Finset Slot) : List Slot :=
  if b.card = 2 then L.filter (fun x => decide (x ∈ b)) else creOf L b ++ annOf L b

/-- `(-1)` to the number of pairs that `P` lists in the opposite order of `L` -/
def orderSign (L : List Slot) : List Slot → Int
  | [] => 1
  | y :: P => (-1) ^ (P.countP (fun z => decide (L.idxOf z < L.idxOf y))) * orderSign L P

section
variable {Ω R A : Type} [Inhabited Ω] [DecidableEq Ω] [CommRing R] [Ring A] [Algebra R A]

/-- the value of a contraction when `x` gives the orbitals of its operators -/
def conVal (v : OrbSystem Ω R A) (o : OSI) (L : List Slot) (x : Slot → Ω) (b : Finset Slot) : R :=
  match creOf L b, annOf L b with
  | [c], [a] =>
    match o.spaceType c.space with
    | .ok .general =>
      if L.idxOf c < L.idxOf a then v.T "gamma1".toList [x a] [x c] else v.T "eta1".toList [x a] [x c]
    | _ => if x c = x a then 1 else 0
  | cs, as => v.T ("lambda".toList ++ intStr cs.length) (as.reverse.map x) (cs.map x)

/-- what one scheme contributes: sign, values of the contractions, and the (normal-ordered) product of the
operators that are left over -/
noncomputable def schemeTerm (v : OrbSystem Ω R A) (o : OSI) (L : List Slot) (x : Slot → Ω) (S : Finset (Finset Slot)) : A :=
  (((orderSign L (S.toList.flatMap (conOrder L) ++ leftOver L S) : Int) : R) * ∏ b ∈ S, conVal v o L x b) •
    ((leftOver L S).map (fun y => v.op y.type (x y))).prod

/-- the tensor elements of all factors of the product -/
def opElements (v : OrbSystem Ω R A) (ns : Nat) (ops : OperatorProduct) (x : Slot → Ω) : R :=
  ((List.range ops.length).map (fun A =>
    v.T (opAt ops A).label ((creSlots ns A (opAt ops A)).map x) ((annSlots ns A (opAt ops A)).map x))).prod

/-- the number of operators of each kind (factor, space, creation or annihilation) in a contraction -/
def legCount (b : Finset Slot) (k : Nat × Nat × Bool) : Nat := (b.filter (fun x => (x.op, x.space, x.cre) = k)).card

/-- number of operators of kind `k` (factor, space, creation or annihilation) that a contraction pattern
takes -/
def elegs (e : EContr) (k : Nat × Nat × Bool) : Nat := (if k.2.2 then (gmAt e k.1).cre k.2.1 else (gmAt e k.1).ann k.2.1).toNat

open Classical in
/-- the sets of second-quantized operators that realise a list `cs` of contraction patterns: sets of
pairwise disjoint sets of operators of the product, one for each pattern, with as many operators of each kind
(factor, space, creation or annihilation) as the pattern takes -/
noncomputable def realisations (ns : Nat) (ops : OperatorProduct) (cs : CContr) : Finset (Finset (Finset Slot)) :=
  (slots ns ops).toFinset.powerset.powerset.filter (fun S =>
    (∀ b ∈ S, ∀ b' ∈ S, b ≠ b' → Disjoint b b') ∧ S.val.map legCount = (cs.map elegs : Multiset (Nat × Nat × Bool → Nat)))

open Classical in
/-- how often the code counts a scheme: `∏ (m - 1)!` over the multiplicities `m` with which the same
numbers of legs occur in it -/
noncomputable def overcount (S : Finset (Finset Slot)) : Nat :=
  ∏ k ∈ S.image legCount, ((S.filter (fun b => legCount b = k)).card - 1).factorial

/-- No three alike contractions are possible: whenever a factor `i` has three creation operators and another factor
`j` three annihilation operators in the same space, they stand in the order in which they cannot be contracted. This
holds if all operators but one have at most two creation and two annihilation operators in every space. -/
def NoTriples (o : OSI) (ops : OperatorProduct) : Prop :=
  ∀ i j s : Nat, i < ops.length → j < ops.length → i ≠ j → 3 ≤ (opAt ops i).gm.cre s → 3 ≤ (opAt ops j).gm.ann s →
    (o.spaceType s = .ok .occupied ∧ j < i) ∨ (o.spaceType s = .ok .unoccupied ∧ i < j)

/-- Wick's theorem: sum over all orbitals and all schemes, each scheme weighted by `w` -/
noncomputable def wickSum (v : OrbSystem Ω R A) (o : OSI) (maxCumulant : Int) (ops : OperatorProduct) (minrank maxrank : Int)
    (w : Finset (Finset Slot) → Nat) : A :=
  sumOver (slots o.spaces.length ops).toFinset (fun y => v.dom y.space) (fun x =>
    opElements v o.spaces.length ops x •
      ∑ S ∈ schemes o maxCumulant ops minrank maxrank, w S • schemeTerm v o (slots o.spaces.length ops) x S)

end
end Wicked
