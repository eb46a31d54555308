import Verif.Spec.OrbitalSum
import Verif.Model.Operator
/-! # Renaming the labels of operators (C91) -/
namespace Wicked

/-- the operator with another label -/
def Operator.relabel (ρ : Str → Str) (p : Operator) : Operator := ⟨ρ p.label, p.gm⟩

/-- the expression with every operator relabelled -/
def OpExpr.relabel (ρ : Str → Str) (E : OpExpr) : OpExpr :=
  E.foldl (fun r q => Lin.add r (q.1.map (Operator.relabel ρ)) q.2) []

/-- the orbital system in which the tensor called `l` is the one called `ρ l` in `v` -/
def OrbSystem.pull {Ω R A : Type} (v : OrbSystem Ω R A) (ρ : Str → Str) : OrbSystem Ω R A := ⟨v.dom, fun l => v.T (ρ l), v.op⟩

end Wicked
