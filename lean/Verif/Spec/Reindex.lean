import Verif.Spec.OrbitalSum
import Verif.Spec.Fock
import Mathlib.Data.List.Forall2
/-! # Substitution of indices (C33, C34, C35, C64) -/
namespace Wicked

/-- `f` is the substitution described by the map: images of keys, identity elsewhere -/
def IndexMap.Describes (m : IndexMap) (f : Index → Index) : Prop :=
  (∀ p ∈ m, f p.1 = p.2) ∧ (∀ i, (∀ p ∈ m, p.1 ≠ i) → f i = i)

/-- what re-indexing a term by a function should do: replace every index at once -/
def STerm.subst (f : Index → Index) (t : STerm) : STerm :=
  ⟨t.normalOrdered, t.ops.map (fun a => ⟨a.type, f a.index⟩),
   t.tensors.map (fun x => { x with lower := x.lower.map f, upper := x.upper.map f })⟩

/-- what `Expression::reindex` should return: substitute in every term, adding the coefficients of
terms that become equal -/
def Expr.substituted (f : Index → Index) (e : Expr) : Expr := e.mapKeys (STerm.subst f)

/-- every operator index occurs in some tensor of the term -/
def STerm.Covered (t : STerm) : Prop := ∀ a ∈ t.ops, ∃ x ∈ t.tensors, a.index ∈ x.lower ++ x.upper

/-- two index lists / terms that differ only by the renaming `ρ`, the order of the tensors, the order of
the indices of each tensor and the order of the operators -/
def STerm.Renamed (ρ : Index → Index) (t t' : STerm) : Prop :=
  t'.normalOrdered = t.normalOrdered ∧
  t'.ops.Perm (t.subst ρ).ops ∧
  ∃ l, l.Perm (t.subst ρ).tensors ∧
    List.Forall₂ (fun x y : Tensor => y.label = x.label ∧ y.symm = x.symm ∧ y.conj = x.conj ∧
      y.lower.Perm x.lower ∧ y.upper.Perm x.upper) l t'.tensors

/-- number of occurrences of indices of space `s` in the term -/
def STerm.occurrences (t : STerm) (s : Int) : Nat := (t.allIdx.filter (fun i => decide (i.space = s))).length

end Wicked
