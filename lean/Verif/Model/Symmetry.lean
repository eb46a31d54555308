import Verif.Model.Term
/-! # Symmetry factors of tensors -/
namespace Wicked

/-- `symmetry_factor` (index.cc:114-121). The running product is an `int`: `result *= factorial(n)` multiplies as `long long int` and keeps the
lowest 32 bits. -/
def indexSymmetryFactor (o : OSI) (indices : List Index) : Res Int := do
  let c ← numIndicesPerSpace o indices
  c.foldlM (fun r n => do
    let f ← factorialM n
    let p ← chk64 (r * f)
    return Int.bmod p (2 ^ 32)) 1

/-- `Tensor::symmetry_factor` (tensor.cc:27-29): a product of two `int`s, undefined if it does not fit -/
def Tensor.symmetryFactor (o : OSI) (t : Tensor) : Res Int := do
  let u ← indexSymmetryFactor o t.upper
  let l ← indexSymmetryFactor o t.lower
  if -2147483648 ≤ u * l ∧ u * l ≤ 2147483647 then .ok (u * l) else .error .ub

end Wicked
