import Verif.Model.GenOp
import Verif.Model.Equation
import Verif.Model.Wick
/-! # `examples/CoupledClusterEquations.ipynb` -/
namespace Wicked

/-- `f"{'v+' * k} {'o' * k}"` (CoupledClusterEquations.ipynb:100) -/
def makeTText (k : Nat) : Str := (List.replicate k ['v', '+']).flatten ++ ' ' :: List.replicate k 'o'

/-- `make_T(n)`: `w.op("t", components)` (CoupledClusterEquations.ipynb:99-101) -/
def makeT (o : OSI) (n : Nat) : Res OpExpr := OpExpr.make o ['t'] ((List.range n).map (fun k => makeTText (k + 1))) false

/-- `H = E0 + F + V` (CoupledClusterEquations.ipynb:65-68) -/
def ccHamiltonian (o : OSI) : Res OpExpr := do
  let E0 ← OpExpr.make o "E_0".toList [[]] false
  let F ← GenOp.genOp o ['f'] 1 ['o', 'v'] ['o', 'v'] true
  let V ← GenOp.genOp o ['v'] 2 ['o', 'v'] ['o', 'v'] true
  return OpExpr.plus (OpExpr.plus E0 F) V

/-- `f"{'o' * r}|{'v' * r}"` (CoupledClusterEquations.ipynb:135) -/
def ccKey (r : Nat) : Str := List.replicate r 'o' ++ '|' :: List.replicate r 'v'

/-- `cc_equations(n)` without the time (CoupledClusterEquations.ipynb:122-138); a missing key raises `KeyError` -/
def ccEquations (o : OSI) (cfg : WickCfg) (n : Nat) : Res (List (Nat × List Equation)) := do
  let H ← ccHamiltonian o
  let T ← makeT o n
  let Hbar := OpExpr.bchSeries H T 4
  let expr ← Wick.contractExpr o cfg (Rational.ofInt 1) Hbar 0 (2 * n)
  let mbeq ← expr.toManybody o ['r']
  (List.range (n + 1)).mapM (m := Except Fault) (fun r =>
    match mbeq.find? (fun q => decide (q.1 = ccKey r)) with
    | some q => .ok (r, q.2)
    | none => .error .throw)

end Wicked
