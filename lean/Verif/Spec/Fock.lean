import Verif.Model.Expression
import Verif.Spec.Lin
import Mathlib.Algebra.Algebra.Defs
import Mathlib.Algebra.BigOperators.Group.List.Basic
/-! # What symbolic terms mean: tensors are numbers, operators live in an algebra -/
namespace Wicked
open Rational

/-- the index belongs to a registered fermionic space -/
def Index.IsFermion (o : OSI) (i : Index) : Prop := o.fieldType i.space = .ok .fermion
/-- the index belongs to a registered bosonic space -/
def Index.IsBoson (o : OSI) (i : Index) : Prop := o.fieldType i.space = .ok .boson

instance Index.decFermion (o : OSI) (i : Index) : Decidable (i.IsFermion o) := inferInstanceAs (Decidable (_ = _))
instance Index.decBoson (o : OSI) (i : Index) : Decidable (i.IsBoson o) := inferInstanceAs (Decidable (_ = _))

/-- the index belongs to a registered space -/
def Index.Registered (o : OSI) (i : Index) : Prop := 0 ≤ i.space ∧ i.space.toNat < o.spaces.length

/-- the exchange sign of two operators: -1 iff both are fermionic -/
def exchSign (o : OSI) (i j : Index) : ℚ := if i.IsFermion o ∧ j.IsFermion o then -1 else 1

/-- A valuation of symbolic terms: each tensor (label, lower and upper indices) is an element of a
commutative ring `R`, each creation and annihilation operator an element of an `R`-algebra `A`. -/
structure Valuation (R A : Type _) where
  /-- value of a tensor: label, lower indices, upper indices -/
  T : Str → List Index → List Index → R
  cre : Index → A
  ann : Index → A

namespace Valuation
variable {R A : Type _} [CommRing R] [Ring A] [Algebra R A]

def op (v : Valuation R A) (a : SQOp) : A :=
  match a.type with
  | .creation => v.cre a.index
  | .annihilation => v.ann a.index

/-- product of the operators in the order in which they are written -/
def ops (v : Valuation R A) (l : List SQOp) : A := (l.map v.op).prod

/-- product of the tensors -/
def tensors (v : Valuation R A) (l : List Tensor) : R := (l.map (fun t => v.T t.label t.lower t.upper)).prod

/-- value of a term that is not labelled normal ordered -/
def term (v : Valuation R A) (t : STerm) : A := v.tensors t.tensors • v.ops t.ops

/-- The canonical (anti)commutation relations, for all indices in registered spaces: every index
denotes an orbital; two operators of the same kind commute up to the exchange sign;
`a_i a†_j = ± a†_j a_i + δ`, with `δ = 1` iff the indices belong to the same space and denote the
same orbital; the tensor `delta` is the Kronecker delta. -/
structure CCR [Algebra ℚ A] (v : Valuation R A) (o : OSI) {Orb : Type _} (orb : Index → Orb) : Prop where
  cre_cre : ∀ i j, i.Registered o → j.Registered o →
    v.cre i * v.cre j = exchSign o i j • (v.cre j * v.cre i)
  ann_ann : ∀ i j, i.Registered o → j.Registered o →
    v.ann i * v.ann j = exchSign o i j • (v.ann j * v.ann i)
  ann_cre_same : ∀ i j, i.Registered o → j.Registered o → i.space = j.space → orb i = orb j →
    v.ann i * v.cre j = exchSign o i j • (v.cre j * v.ann i) + 1
  ann_cre_diff : ∀ i j, i.Registered o → j.Registered o → ¬ (i.space = j.space ∧ orb i = orb j) →
    v.ann i * v.cre j = exchSign o i j • (v.cre j * v.ann i)
  delta_same : ∀ i j, orb i = orb j → v.T "delta".toList [i] [j] = 1
  delta_diff : ∀ i j, orb i ≠ orb j → v.T "delta".toList [i] [j] = 0

end Valuation

/-- every operator of the term has an index in a registered space -/
def STerm.OpsRegistered (o : OSI) (t : STerm) : Prop := ∀ a ∈ t.ops, a.index.Registered o

/-- an operator whose space is registered -/
def SQOp.Registered (o : OSI) (a : SQOp) : Prop := ∃ st, o.spaceType a.index.space = .ok st

/-- every operator of every term has an index in a registered space -/
def Expr.OpsRegistered (o : OSI) (e : Expr) : Prop := ∀ p ∈ e, p.1.OpsRegistered o

/-- no term is labelled normal ordered -/
def Expr.Unlabelled (e : Expr) : Prop := ∀ p ∈ e, p.1.normalOrdered = false

/-- a string of operators in the documented normal form: creation operators left of annihilation
operators, creation operators in increasing and annihilation operators in decreasing index order,
and no fermionic operator repeated -/
def NormalForm (o : OSI) (l : List SQOp) : Prop :=
  l.Pairwise (fun a b =>
    (b.isCre = true → a.isCre = true) ∧
    (a.isCre = true → b.isCre = true → Index.lt b.index a.index = false) ∧
    (a.isCre = false → b.isCre = false → Index.lt a.index b.index = false) ∧
    ¬ (a = b ∧ a.index.IsFermion o))

/-- an operator acts on a registered fermionic space -/
def SQOp.IsFermion (o : OSI) (a : SQOp) : Prop := a.fieldType o = .ok .fermion

/-- an operator acts on a registered bosonic space -/
def SQOp.IsBoson (o : OSI) (a : SQOp) : Prop := a.fieldType o = .ok .boson

/-- a valuation of operators in a ring that respects exchange statistics inside a normal-ordered
product: fermions anticommute, bosons commute with everything -/
structure GradedCommutative (o : OSI) {A : Type} [Ring A] (v : SQOp → A) : Prop where
  fermion : ∀ a b : SQOp, a.IsFermion o → b.IsFermion o → v a * v b = - (v b * v a)
  boson : ∀ a b : SQOp, a.IsBoson o → v a * v b = v b * v a

/-- value of an operator product -/
def opsProd {A : Type} [Ring A] (v : SQOp → A) (l : List SQOp) : A := (l.map v).prod

/-- a two-argument valuation that is symmetric in each argument -/
def SymmVal {M : Type} (τ : List Index → List Index → M) : Prop :=
  ∀ l l' u u', l.Perm l' → u.Perm u' → τ l u = τ l' u'

/-- a function of lists into an additive group that changes sign under every exchange of
adjacent entries -/
def AntisymmFun {α M : Type*} [AddCommGroup M] (f : List α → M) : Prop :=
  ∀ (pre : List α) (a b : α) (post : List α), f (pre ++ a :: b :: post) = - f (pre ++ b :: a :: post)

/-- a two-argument valuation (lower indices, upper indices) that is antisymmetric in each argument -/
def AntisymmVal {M : Type} [AddCommGroup M] (τ : List Index → List Index → M) : Prop :=
  (∀ u, AntisymmFun (fun l => τ l u)) ∧ (∀ l, AntisymmFun (τ l))

end Wicked
