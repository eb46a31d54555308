import Verif.Model.Examples
import Verif.Model.GenOp
import Verif.Model.Wick
import Verif.Model.Build
/-! # The notebook examples/numerical/spinorbital-MP2.ipynb -/
namespace Wicked

/-- the registered spaces (spinorbital-MP2.ipynb:63-64) -/
def mp2Spaces : List RegOp :=
  [.add 'o' .fermion .occupied ("ijklmn".toList.map (fun c => [c])) [], .add 'v' .fermion .unoccupied ("abcdef".toList.map (fun c => [c])) []]

/-- the expression contracted (spinorbital-MP2.ipynb:99-107); `F1op` is built and not used; the threads and settings of `WickTheorem()` are the defaults -/
def mp2Expression (o : OSI) : Res Expr := do
  let T2op ← OpExpr.make o "T2".toList ["v+ v+ o o".toList] false
  let F0op ← OpExpr.make o "F0".toList ["o+ o".toList, "v+ v".toList] false
  let _F1op ← OpExpr.make o "F1".toList ["o+ v".toList, "v+ o".toList] false
  let V1op ← GenOp.genOp o "V".toList 2 "ov".toList "ov".toList true
  let expr ← Wick.contractExpr o {} (Rational.ofInt 1) (OpExpr.commutator F0op T2op) 0 4
  let expr' ← Wick.contractExpr o {} (Rational.ofInt 1) V1op 0 4
  return Lin.plus expr expr'

/-- the equations of a key; `mbeq[key]` raises `KeyError` if the key is absent (spinorbital-MP2.ipynb:117) -/
def mbeqAt (mbeq : List (Str × List Equation)) (key : Str) : Res (List Equation) :=
  match mbeq.find? (fun p => decide (p.1 = key)) with
  | none => throw .throw
  | some p => pure p.2

/-- the function that is generated and executed with `exec` (spinorbital-MP2.ipynb:109-122) -/
def mp2Function (o : OSI) (fmt : Rational → Str) : Res Str := do
  let expr ← mp2Expression o
  let mbeq ← Expr.toManybody o ['R'] expr
  let eqs ← mbeqAt mbeq "oo|vv".toList
  let lines ← eqs.mapM (m := Except Fault) (fun q => q.compileEinsum o fmt)
  return join ['\n'] (["def evaluate_residual(F0,T2,V):".toList, "    # contributions to the residual".toList, "    Roovv = np.zeros((nocc,nocc,nvir,nvir))".toList] ++
    lines.map (fun l => "    ".toList ++ l) ++ ["    return Roovv".toList])

section
variable {S : Type} [Field S]

/-- the lines of `antisymmetrize_residual` (spinorbital-MP2.ipynb:138-141) -/
def antisymMp2Lines : List TransposeLine :=
  [⟨1, "ijab", "ijab"⟩, ⟨-1, "ijab", "jiab"⟩, ⟨-1, "ijab", "ijba"⟩, ⟨1, "ijab", "jiba"⟩]

/-- `antisymmetrize_residual(Roovv)`, for an array `Roovv` with the axes `nocc`, `nocc`, `nvir`, `nvir` (spinorbital-MP2.ipynb:135-142) -/
def antisymmetrizeMp2 (nocc nvir : Nat) (R : NdArray S) : NdArray S := ⟨[nocc, nocc, nvir, nvir], runTranspose antisymMp2Lines R.elem⟩

/-- `update_amplitudes_mp2(T2, R, invD)` (spinorbital-MP2.ipynb:145-146) -/
def updateMp2 (T2 : List (Str × NdArray S)) (R : NdArray S) (invD : List (Str × NdArray S)) : Res (List (Str × NdArray S)) :=
  updateBlock T2 [("oovv".toList, R)] invD "oovv".toList

/-- all tuples of positions in an array with axes of the given lengths (spinorbital-MP2.ipynb:150) -/
def positions : List Nat → List (List Nat)
  | [] => [[]]
  | n :: l => (List.range n).flatMap (fun i => (positions l).map (i :: ·))

/-- `compute_energy(T2, V)`; numpy refuses axes of different lengths (and stretches axes of length one: not modelled, an error) (spinorbital-MP2.ipynb:149-151) -/
def mp2Energy (T2 V : List (Str × NdArray S)) : Res S := do
  let v ← getArray V "oovv".toList
  let t ← getArray T2 "oovv".toList
  if v.shape = t.shape ∧ v.shape.length = 4 then return 1 / 4 * ((positions v.shape).map (fun x => v.elem x * t.elem x)).sum else throw .throw

/-- the loop: `residual T2` is `evaluate_residual(F0, T2, H)`, `stop R` the test `np.linalg.norm(R) < 1.0e-9`; the result are the amplitudes and the last value of `Emp2_wicked`
(`none` if the loop has no round) (spinorbital-MP2.ipynb:191-204) -/
def mp2Loop (residual : List (Str × NdArray S) → NdArray S) (nocc nvir : Nat) (H invD : List (Str × NdArray S)) (stop : NdArray S → Bool) :
    Nat → List (Str × NdArray S) → Option S → Res (List (Str × NdArray S) × Option S)
  | 0, T2, E => return (T2, E)
  | n + 1, T2, _ => do
    let R := antisymmetrizeMp2 nocc nvir (residual T2)
    let T2 ← updateMp2 T2 R invD
    let E ← mp2Energy T2 H
    if stop R then return (T2, some E) else mp2Loop residual nocc nvir H invD stop n T2 (some E)
end

end Wicked
