import Verif.Model.MP2
import Verif.Spec.PyFunction
import Verif.Spec.Amplitudes
import Mathlib.Algebra.CharZero.Defs
import Mathlib.Algebra.Algebra.Rat
/-! # The MP2 notebook (C97) -/
namespace Wicked
open scoped BigOperators

/-- the function that the notebook shows as its output (spinorbital-MP2.ipynb:87-93), for the printed coefficients 1/2, -1/2 and 1/4 -/
def mp2Text (half minusHalf quarter : Str) : Str :=
  join ['\n'] ["def evaluate_residual(F0,T2,V):".toList,
    "    # contributions to the residual".toList,
    "    Roovv = np.zeros((nocc,nocc,nvir,nvir))".toList,
    "    Roovv += ".toList ++ half ++ " * np.einsum(\"ik,jkab->ijab\",F0[\"oo\"],T2[\"oovv\"],optimize=\"optimal\")".toList,
    "    Roovv += ".toList ++ minusHalf ++ " * np.einsum(\"ca,ijbc->ijab\",F0[\"vv\"],T2[\"oovv\"],optimize=\"optimal\")".toList,
    "    Roovv += ".toList ++ quarter ++ " * np.einsum(\"ijab->ijab\",V[\"oovv\"],optimize=\"optimal\")".toList,
    "    return Roovv".toList]

section
variable {S : Type} [Field S]

/-- the element of the array `D[key]` -/
def elemOf (D : List (Str × NdArray S)) (key : Str) (x : List Nat) : S :=
  match getArray D key with
  | .ok X => X.elem x
  | .error _ => 0

/-- the arrays that the function sees in the call `evaluate_residual(F0, T2, H)` with `F0 = {"oo": H["oo"], "vv": H["vv"]}` -/
def mp2Arrays (H T2 : List (Str × NdArray S)) (name key : Str) (x : List Nat) : S :=
  if name = "F0".toList then (if key = "oo".toList ∨ key = "vv".toList then elemOf H key x else 0)
  else if name = "T2".toList then elemOf T2 key x
  else if name = "V".toList then elemOf H key x
  else 0

/-- the positions of the orbitals of a space in the arrays -/
def mp2Dom (nocc nvir : Nat) (c : Char) : Finset Nat := if c = 'o' then Finset.range nocc else if c = 'v' then Finset.range nvir else ∅

/-- `residual T2` is what a call of the Python function `text` returns -/
def ReturnsResidual [CharZero S] (H : List (Str × NdArray S)) (nocc nvir : Nat) (text : Str) (residual : List (Str × NdArray S) → NdArray S) : Prop :=
  ∀ T2, (∃ t, HasArray T2 "oovv".toList t ∧ t.shape = [nocc, nocc, nvir, nvir]) →
    ReturnsArray (mp2Arrays H T2) (mp2Dom nocc nvir) text "evaluate_residual".toList (some ["nocc".toList, "nocc".toList, "nvir".toList, "nvir".toList]) (residual T2).elem

/-- the elements change sign when the two occupied or the two virtual positions are exchanged -/
def AntisymmetricArray (nocc nvir : Nat) (X : NdArray S) : Prop :=
  ∀ i < nocc, ∀ j < nocc, ∀ a < nvir, ∀ b < nvir, X.elem [j, i, a, b] = -X.elem [i, j, a, b] ∧ X.elem [i, j, b, a] = -X.elem [i, j, a, b]

/-- a matrix without elements off the diagonal -/
def DiagonalArray (n : Nat) (X : NdArray S) : Prop := ∀ p < n, ∀ q < n, p ≠ q → X.elem [p, q] = 0

/-- the first-order amplitudes `V[ijab] / (ε_i + ε_j - ε_a - ε_b)` -/
def mp2Amplitude (oo vv V : NdArray S) (i j a b : Nat) : S :=
  V.elem [i, j, a, b] / (oo.elem [i, i] + oo.elem [j, j] - vv.elem [a, a] - vv.elem [b, b])

/-- the second-order energy `1/4 Σ V[ijab]^2 / (ε_i + ε_j - ε_a - ε_b)` -/
def mp2CorrelationEnergy (nocc nvir : Nat) (oo vv V : NdArray S) : S :=
  1 / 4 * ∑ i ∈ Finset.range nocc, ∑ j ∈ Finset.range nocc, ∑ a ∈ Finset.range nvir, ∑ b ∈ Finset.range nvir,
    V.elem [i, j, a, b] ^ 2 / (oo.elem [i, i] + oo.elem [j, j] - vv.elem [a, a] - vv.elem [b, b])
end

end Wicked
