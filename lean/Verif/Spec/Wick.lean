import Verif.Model.Wick
/-! # Specification vocabulary for Wick's theorem -/
namespace Wicked

/-- An operator that can be created while `ns` spaces are registered: numbers of creation and
annihilation operators are non-negative, and zero outside the registered spaces. -/
def Operator.Valid (ns : Nat) (p : Operator) : Prop :=
  ∀ s, 0 ≤ p.gm.cre s ∧ 0 ≤ p.gm.ann s ∧ (ns ≤ s → p.gm.cre s = 0 ∧ p.gm.ann s = 0)

/-- `e` takes `c A` creation and `a A` annihilation operators of space `s` from operator number `A`
(of `n`), and nothing from other spaces. -/
def Legs (n : Nat) (s : Nat) (c a : Nat → Int) (e : EContr) : Prop :=
  e.length = n ∧ ∀ A < n, ∀ t,
    (gmAt e A).cre t = (if t = s then c A else 0) ∧ (gmAt e A).ann t = (if t = s then a A else 0)

/-- The elementary contractions of a product of operators, by type of space.
* occupied: one creation operator of some factor `l` with one annihilation operator of a factor `r`
  standing further right;
* unoccupied: one annihilation operator of `l` with one creation operator of some `r` further right;
* general: `k` creation and `k` annihilation operators, `1 ≤ k ≤ maxCumulant`, taken from at least
  two different factors. -/
def IsElementary (o : OSI) (maxCumulant : Int) (ops : OperatorProduct) (e : EContr) : Prop :=
  ∃ s : Nat, s < o.spaces.length ∧
    ((o.spaceType s = .ok .occupied ∧ ∃ l r, l < r ∧ r < ops.length ∧
        1 ≤ (opAt ops l).gm.cre s ∧ 1 ≤ (opAt ops r).gm.ann s ∧
        Legs ops.length s (fun A => if A = l then 1 else 0) (fun A => if A = r then 1 else 0) e) ∨
     (o.spaceType s = .ok .unoccupied ∧ ∃ l r, l < r ∧ r < ops.length ∧
        1 ≤ (opAt ops l).gm.ann s ∧ 1 ≤ (opAt ops r).gm.cre s ∧
        Legs ops.length s (fun A => if A = r then 1 else 0) (fun A => if A = l then 1 else 0) e) ∨
     (o.spaceType s = .ok .general ∧ ∃ c a : Nat → Int, ∃ k : Int, 1 ≤ k ∧ k ≤ maxCumulant ∧
        (∀ A < ops.length, 0 ≤ c A ∧ c A ≤ (opAt ops A).gm.cre s ∧ 0 ≤ a A ∧ a A ≤ (opAt ops A).gm.ann s) ∧
        ((List.range ops.length).map c).sum = k ∧ ((List.range ops.length).map a).sum = k ∧
        (∃ A B, A < B ∧ B < ops.length ∧ 0 < c A + a A ∧ 0 < c B + a B) ∧
        Legs ops.length s c a e))

/-- number of second-quantized operators of kind "creation in space `s`" that a sequence of elementary
contractions takes from operator number `A` -/
def takenCre (cs : List EContr) (A s : Nat) : Int := (cs.map (fun e => (gmAt e A).cre s)).sum
/-- the same for annihilation operators -/
def takenAnn (cs : List EContr) (A s : Nat) : Int := (cs.map (fun e => (gmAt e A).ann s)).sum

/-- the elementary contractions with numbers `cv` in the list `el` -/
def pickAt (el : List EContr) (cv : List Int) : List EContr := cv.map (fun c => el.getD c.toNat [])

/-- total number of second-quantized operators of the product: the sum over its factors and over the
spaces -/
def totalOps (ns : Nat) (ops : OperatorProduct) : Int :=
  ((List.range ops.length).map (fun A =>
    ((List.range ns).map (fun s => (opAt ops A).gm.cre s + (opAt ops A).gm.ann s)).sum)).sum

/-- number of second-quantized operators that a sequence of elementary contractions leaves
uncontracted -/
def uncontracted (ns : Nat) (ops : OperatorProduct) (cs : List EContr) : Int :=
  ((List.range ops.length).map (fun A => ((List.range ns).map (fun s =>
    ((opAt ops A).gm.cre s - takenCre cs A s) + ((opAt ops A).gm.ann s - takenAnn cs A s))).sum)).sum

/-- A composite contraction of `ops`, as a non-decreasing sequence of numbers of elementary
contractions in the list `el`: it takes at most the available operators and leaves a number of
operators in the window. -/
structure IsComposite (ns : Nat) (ops : OperatorProduct) (el : List EContr) (minrank maxrank : Int)
    (cv : List Int) : Prop where
  sorted : cv.Pairwise (· ≤ ·)
  range : ∀ c ∈ cv, 0 ≤ c ∧ c < el.length
  avail : ∀ A < ops.length, ∀ s < ns,
    takenCre (pickAt el cv) A s ≤ (opAt ops A).gm.cre s ∧ takenAnn (pickAt el cv) A s ≤ (opAt ops A).gm.ann s
  window : minrank ≤ uncontracted ns ops (pickAt el cv) ∧ uncontracted ns ops (pickAt el cv) ≤ maxrank

/-- no composite contraction, of any rank, consists of more than 100 elementary contractions -/
def Shallow (ns : Nat) (ops : OperatorProduct) (el : List EContr) : Prop :=
  ∀ minr maxr cv, IsComposite ns ops el minr maxr cv → cv.length ≤ 100

namespace Wick
/-- second-quantized operators of the product in space `s` -/
def spaceOps (ops : OperatorProduct) (s : Nat) : Int :=
  (ops.map (fun p => p.gm.cre s + p.gm.ann s)).sum
end Wick

end Wicked
