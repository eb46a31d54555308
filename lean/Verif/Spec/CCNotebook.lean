import Verif.Spec.MP2
import Verif.Spec.ManyBody
import Verif.Spec.FockSpace
import Verif.Spec.Projection
import Verif.Spec.Notebook
import Verif.Model.CCNotebook
import Mathlib.RingTheory.Nilpotent.Exp
import Mathlib.Algebra.Order.Ring.Abs
import Mathlib.Data.Rat.Cast.CharZero
/-! # The loops of the coupled-cluster notebooks (C100)

The spin orbitals are the numbers `0, ..., nocc + nvir - 1`, the first `nocc` are occupied. -/
namespace Wicked
open scoped BigOperators

section
variable {S : Type} {nocc nvir : Nat}

/-- is the orbital occupied? -/
def isOcc (nocc : Nat) {nvir : Nat} (x : Fin (nocc + nvir)) : Bool := decide (x.val < nocc)

/-- the label of the space of the orbital -/
def orbLabel (nocc : Nat) {nvir : Nat} (x : Fin (nocc + nvir)) : Char := if x.val < nocc then 'o' else 'v'

/-- the position of the orbital in the axes of its space -/
def orbPos (nocc : Nat) {nvir : Nat} (x : Fin (nocc + nvir)) : Nat := if x.val < nocc then x.val else x.val - nocc

variable [Field S]

/-- the tensor that is stored in the blocks `D["oo"], D["ov"], ...`, upper indices first (absent blocks count as zero) -/
def dictTensor (nocc : Nat) {nvir : Nat} (D : List (Str × NdArray S)) (l u : List (Fin (nocc + nvir))) : S :=
  if l.length = u.length then elemOf D ((u ++ l).map (orbLabel nocc)) ((u ++ l).map (orbPos nocc)) else 0

/-- the tensor is antisymmetric in the lower and in the upper indices -/
def AntisymTensor {Ω : Type} (F : List Ω → List Ω → S) : Prop :=
  (∀ pre a b post u, F (pre ++ a :: b :: post) u = - F (pre ++ b :: a :: post) u) ∧ ∀ l pre a b post, F l (pre ++ a :: b :: post) = - F l (pre ++ b :: a :: post)

/-- the arrays that a function sees in the call `evaluate_residual_n_n(H, T)` (absent blocks count as zero) -/
def ccArrays (Hd Td : List (Str × NdArray S)) (name key : Str) (x : List (Fin (nocc + nvir))) : S :=
  elemOf (if name = ['H'] then Hd else Td) key (x.map (orbPos nocc))

/-- the orbitals of a space -/
def ccDom (nocc nvir : Nat) (c : Char) : Finset (Fin (nocc + nvir)) :=
  if c = 'o' then Finset.univ.filter (fun x => isOcc nocc x = true) else Finset.univ.filter (fun x => isOcc nocc x = false)

section
variable [CharZero S]

/-- the matrix element `⟨excited determinant| exp(-T) H exp(T) |reference⟩` in Fock space for the one- and two-body operator `H` and the cluster operator `T` of ranks `1, ..., rank` with the integrals and amplitudes
in the dictionaries -/
noncomputable def ccElement (Hd Td : List (Str × NdArray S)) (rank : Nat) (u l : List (Fin (nocc + nvir))) : S :=
  let occ : Finset (Fin (nocc + nvir)) := Finset.univ.filter (fun x => isOcc nocc x = true)
  let vir : Finset (Fin (nocc + nvir)) := Finset.univ.filter (fun x => isOcc nocc x = false)
  let N := normalProd (isOcc nocc) (fockOp S (isOcc (nvir := nvir) nocc))
  let H := manyBody (dictTensor nocc Hd) N 1 Finset.univ Finset.univ + manyBody (dictTensor nocc Hd) N 2 Finset.univ Finset.univ
  let T := ((List.range' 1 rank).map (fun n => manyBody (dictTensor nocc Td) N n vir occ)).sum
  fockExpectation S (bra (fockOp S (isOcc (nvir := nvir) nocc)) u l * (IsNilpotent.exp (-T) * H * IsNilpotent.exp T))

/-- the tensors of the equations: `H` and `T` -/
def ccTensor (Hd Td : List (Str × NdArray S)) (lab : Str) : List (Fin (nocc + nvir)) → List (Fin (nocc + nvir)) → S := dictTensor nocc (if lab = ['H'] then Hd else Td)

/-- a bound for the error that the nine printed decimals of the coefficients make: `10^-9` times the sum of the absolute values of the matrix elements of the terms of the contracted expression `e` (without their coefficients) -/
noncomputable def ccError [LinearOrder S] [NeZero (nocc + nvir)] (e : Expr) (Hd Td : List (Str × NdArray S)) (u l : List (Fin (nocc + nvir))) : S :=
  let occ : Finset (Fin (nocc + nvir)) := Finset.univ.filter (fun x => isOcc nocc x = true)
  let vir : Finset (Fin (nocc + nvir)) := Finset.univ.filter (fun x => isOcc nocc x = false)
  let v : OrbSystem (Fin (nocc + nvir)) S (Module.End S (FockSpace (Fin (nocc + nvir)) S)) := ⟨fun s => if s = 0 then occ else vir, ccTensor Hd Td, fockOp S (isOcc nocc)⟩
  1 / 10 ^ 9 * (e.map (fun p => |fockExpectation S (bra (fockOp S (isOcc nocc)) u l * v.normalValue (isOcc nocc) p.1)|)).sum

/-- the dictionary has exactly the blocks of the amplitudes of the ranks `1, ..., rank` -/
structure IsAmplitudes (nocc nvir rank : Nat) (T : List (Str × NdArray S)) : Prop where
  blocks : ∀ n, 1 ≤ n → n ≤ rank → ∃ t, HasArray T (ampKey n 0) t ∧ t.shape = List.replicate n nocc ++ List.replicate n nvir
  only : ∀ key X, HasArray T key X → ∃ n, 1 ≤ n ∧ n ≤ rank ∧ key = ampKey n 0

/-- `evalR n T` is what a call `evaluate_residual_n_n(H, T)` of the Python function `text n` returns -/
def ReturnsCC [NeZero (nocc + nvir)] (Hd : List (Str × NdArray S)) (rank : Nat) (text : Nat → Str) (evalR : Nat → List (Str × NdArray S) → NdArray S) : Prop :=
  ∀ n ≤ rank, ∀ T, IsAmplitudes nocc nvir rank T → ∃ r,
    ReturnsArray (ccArrays (nocc := nocc) (nvir := nvir) Hd T) (ccDom nocc nvir) (text n) ("evaluate_residual_".toList ++ natStr n ++ "_".toList ++ natStr n)
      (if n + n = 0 then none else some (List.replicate n "nocc".toList ++ List.replicate n "nvir".toList)) r ∧
    (evalR n T).shape = List.replicate n nocc ++ List.replicate n nvir ∧
    ∀ u l : List (Fin (nocc + nvir)), u.length = n → l.length = n → (∀ x ∈ u, isOcc nocc x = true) → (∀ x ∈ l, isOcc nocc x = false) →
      (evalR n T).elem (u.map (orbPos nocc) ++ l.map (orbPos nocc)) = r (u ++ l)

variable [LinearOrder S]

/-- One round of the coupled-cluster iteration from the amplitudes `T` to `T'` with the printed energy `E` and the square `ν` of the printed norm: up to `err` the energy and the residuals `R` are the
matrix elements of `exp(-T) H exp(T)`; the amplitudes change by the residual divided by the difference of the orbital energies -/
structure CCStep (nocc nvir rank : Nat) (Hd : List (Str × NdArray S)) (err : List (Str × NdArray S) → List (Fin (nocc + nvir)) → List (Fin (nocc + nvir)) → S)
    (T : List (Str × NdArray S)) (E ν : S) (T' : List (Str × NdArray S)) : Prop where
  amplitudes : IsAmplitudes nocc nvir rank T
  antisymmetric : AntisymTensor (dictTensor (nvir := nvir) nocc T)
  energy : |E - ccElement (nocc := nocc) (nvir := nvir) Hd T rank [] []| ≤ err T [] []
  residual : ∃ R : List (Fin (nocc + nvir)) → List (Fin (nocc + nvir)) → S,
    (∀ u l, 1 ≤ u.length → u.length ≤ rank → l.length = u.length → (∀ x ∈ u, isOcc nocc x = true) → (∀ x ∈ l, isOcc nocc x = false) →
      |R u l - ccElement Hd T rank u l| ≤ err T u l ∧
      dictTensor nocc T' l u = dictTensor nocc T l u + R u l * ((u.map (fun x => dictTensor nocc Hd [x] [x])).sum - (l.map (fun x => dictTensor nocc Hd [x] [x])).sum)⁻¹) ∧
    ν = (∑ i ∈ ccDom nocc nvir 'o', ∑ a ∈ ccDom nocc nvir 'v', R [i] [a] ^ 2) +
      ∑ i ∈ ccDom nocc nvir 'o', ∑ j ∈ ccDom nocc nvir 'o', ∑ a ∈ ccDom nocc nvir 'v', ∑ b ∈ ccDom nocc nvir 'v', R [i, j] [a, b] ^ 2

/-- at most `n` rounds, ended by a round with a norm below `10^-8` if there is one -/
inductive CCRounds {α : Type} (step : α → S → S → α → Prop) : Nat → α → α → List (S × S) → Prop
  | none (T : α) : CCRounds step 0 T T []
  | last (n : Nat) {T T' : α} {E ν : S} : step T E ν T' → ν < (1 / 10 ^ 8) ^ 2 → CCRounds step (n + 1) T T' [(E, ν)]
  | next {n : Nat} {T T' T'' : α} {E ν : S} {log : List (S × S)} : step T E ν T' → ¬ ν < (1 / 10 ^ 8) ^ 2 → CCRounds step n T' T'' log → CCRounds step (n + 1) T T'' ((E, ν) :: log)
end
end
end Wicked
