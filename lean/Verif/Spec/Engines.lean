import Verif.Spec.CoupledCluster
/-! # Operators written out as symbolic terms (C89) -/
namespace Wicked

/-- `t` is the operator `p` written out: one tensor with the label of `p`, creation operators followed by annihilation operators, as many of every
space as `p` has, every index on one operator and one place of the tensor; the tensor carries the creation indices below and the annihilation indices,
reversed, above. `operator_expr` gives such terms (C36). -/
def Spells (ns : Nat) (p : Operator) (t : STerm) : Prop :=
  ∃ (C A : List Index) (sym : Symmetry) (conj : Bool),
    t = ⟨false, C.map (fun i => ⟨.creation, i⟩) ++ A.map (fun i => ⟨.annihilation, i⟩), [⟨p.label, C, A.reverse, sym, conj⟩]⟩ ∧
    (C ++ A).Nodup ∧ (∀ i ∈ C ++ A, 0 ≤ i.space ∧ i.space < (ns : Int)) ∧
    ∀ s : Nat, s < ns → (C.countP (fun i => decide (i.space = (s : Int))) : Int) = p.gm.cre s ∧
      (A.countP (fun i => decide (i.space = (s : Int))) : Int) = p.gm.ann s

/-- the weight of an operator, `∏ₛ cre(s)! ann(s)!` -/
def Operator.weight (ns : Nat) (p : Operator) : ℚ :=
  ((List.range ns).map (fun s => ((p.gm.cre s).toNat.factorial : ℚ))).prod * ((List.range ns).map (fun s => ((p.gm.ann s).toNat.factorial : ℚ))).prod

/-- `e` is the linear combination `E` of single operators written out: term by term, in any order. An operator of `op()` stands for `1 / ∏ₛ cre(s)! ann(s)!` times the
sum over its indices. -/
def WrittenOut (ns : Nat) (E : OpExpr) (e : Expr) : Prop :=
  ∃ l : Expr, l.Perm e ∧ List.Forall₂ (fun (q : OperatorProduct × Rational) (r : STerm × Rational) =>
    ∃ p, q.1 = [p] ∧ Spells ns p r.1 ∧ Rational.toRat q.2 = Rational.toRat r.2 * p.weight ns) E l

/-- no occupied space has both creation and annihilation operators of `p` -/
def NoSelfContraction (o : OSI) (p : Operator) : Prop :=
  ∀ s : Nat, s < o.spaces.length → o.spaceType s = .ok .occupied → p.gm.cre s = 0 ∨ p.gm.ann s = 0

/-- the expressions have no index in common -/
def NoCommonIndex (a b : Expr) : Prop := ∀ p ∈ a, ∀ q ∈ b, ∀ i ∈ p.1.allIdx, i ∉ q.1.allIdx

end Wicked
