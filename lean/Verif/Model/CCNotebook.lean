import Verif.Model.MP2
import Mathlib.Algebra.Order.Field.Basic
/-! # The loops of examples/numerical/spinorbital-CCSD.ipynb and spinorbital-CCSDT.ipynb -/
namespace Wicked

section
variable {S : Type} [Field S]

/-- the amplitudes at the start: zeros (spinorbital-CCSD.ipynb:252, spinorbital-CCSDT.ipynb:149-153) -/
def ccStart (nocc nvir rank : Nat) : List (Str × NdArray S) :=
  [("ov".toList, ⟨[nocc, nvir], fun _ => 0⟩), ("oovv".toList, ⟨[nocc, nocc, nvir, nvir], fun _ => 0⟩)] ++
    if rank = 3 then [("ooovvv".toList, ⟨[nocc, nocc, nocc, nvir, nvir, nvir], fun _ => 0⟩)] else []

/-- the residuals of a round; `evalR n T` is what `evaluate_residual_n_n(H, T)` returns (spinorbital-CCSD.ipynb:265-270, spinorbital-CCSDT.ipynb:166-173) -/
def ccResiduals (evalR : Nat → List (Str × NdArray S) → NdArray S) (nocc nvir rank : Nat) (T : List (Str × NdArray S)) : List (Str × NdArray S) :=
  [("ov".toList, evalR 1 T), ("oovv".toList, ⟨[nocc, nocc, nvir, nvir], antisymmetrize22 (evalR 2 T).elem⟩)] ++
    if rank = 3 then [("ooovvv".toList, ⟨[nocc, nocc, nocc, nvir, nvir, nvir], antisymmetrize33 (evalR 3 T).elem⟩)] else []

/-- `np.linalg.norm(X) ** 2` in exact arithmetic (spinorbital-CCSD.ipynb:276) -/
def sumSquares (X : NdArray S) : S := ((positions X.shape).map (fun x => X.elem x ^ 2)).sum

/-- `norm_R ** 2` in exact arithmetic; the triples are not part of it, neither in the notebook for CCSDT (spinorbital-CCSD.ipynb:276, spinorbital-CCSDT.ipynb:179) -/
def ccNormSq (R : List (Str × NdArray S)) : Res S := do
  let x ← getArray R "ov".toList
  let y ← getArray R "oovv".toList
  return sumSquares x + sumSquares y

variable [LinearOrder S]

/-- The loop: the result are the amplitudes and, for every round, the printed correlation energy and the square of the printed norm. The test `norm_R < 1.0e-8` is made for the squares
(spinorbital-CCSD.ipynb:261-279, spinorbital-CCSDT.ipynb:162-182) -/
def ccLoop (evalR : Nat → List (Str × NdArray S) → NdArray S) (nocc nvir rank : Nat) (invD : List (Str × NdArray S)) : Nat → List (Str × NdArray S) → Res (List (Str × NdArray S) × List (S × S))
  | 0, T => return (T, [])
  | n + 1, T => do
    let E := (evalR 0 T).elem []
    let R := ccResiduals evalR nocc nvir rank T
    let T' ← updateAmplitudes T R invD rank
    let ν ← ccNormSq R
    if ν < (1 / 10 ^ 8) ^ 2 then return (T', [(E, ν)])
    else do
      let p ← ccLoop evalR nocc nvir rank invD n T'
      return (p.1, (E, ν) :: p.2)
end
end Wicked
