import Verif.Model.Examples
import Mathlib.Data.List.Forall2
import Mathlib.Algebra.BigOperators.Group.List.Defs
import Mathlib.Algebra.Field.Defs
/-! # Denominators and amplitudes (C83) -/
namespace Wicked

/-- the key of the amplitudes with `k` spin-up and `l` spin-down excitations: `k` letters `o`, `l` letters `O`, `k` letters `v`, `l` letters `V` -/
def ampKey (k l : Nat) : Str := List.replicate k 'o' ++ List.replicate l 'O' ++ List.replicate k 'v' ++ List.replicate l 'V'

/-- `D[key]` is the array `X` -/
def HasArray {S : Type} (D : List (Str × NdArray S)) (key : Str) (X : NdArray S) : Prop := D.find? (fun p => decide (p.1 = key)) = some (key, X)

/-- `I` are positions in an array with axes of the lengths `shape` -/
def Within (shape I : List Nat) : Prop := List.Forall₂ (fun i n => i < n) I shape

section
variable {S : Type} [Field S]

/-- the excitation energy denominators of rank `n`: `1 / (Σ oo[i,i] − Σ vv[a,a])` for all occupied positions `I` and virtual positions `A` -/
def IsInverseDenominator (n no nv : Nat) (oo vv X : NdArray S) : Prop :=
  X.shape = List.replicate n no ++ List.replicate n nv ∧ ∀ I A, Within (List.replicate n no) I → Within (List.replicate n nv) A →
    X.elem (I ++ A) = ((I.map (fun i => oo.elem [i, i])).sum - (A.map (fun a => vv.elem [a, a])).sum)⁻¹

/-- the blocks `key` of the three dictionaries exist and have the same shapes -/
def MatchingBlocks (T R invD : List (Str × NdArray S)) (key : Str) : Prop :=
  ∃ t r d, HasArray T key t ∧ HasArray R key r ∧ HasArray invD key d ∧ r.shape = d.shape ∧ t.shape = r.shape

/-- the block `key` of `T'` is that of `T` plus the residual times the inverse denominators -/
def BlockUpdated (T R invD T' : List (Str × NdArray S)) (key : Str) : Prop :=
  ∃ t r d t', HasArray T key t ∧ HasArray R key r ∧ HasArray invD key d ∧ HasArray T' key t' ∧ t'.shape = t.shape ∧ ∀ I, t'.elem I = t.elem I + r.elem I * d.elem I

/-- all excitation energies of rank `n` are different from zero -/
def NonzeroEnergies (n no nv : Nat) (oo vv : NdArray S) : Prop :=
  ∀ I A, Within (List.replicate n no) I → Within (List.replicate n nv) A → (I.map (fun i => oo.elem [i, i])).sum - (A.map (fun a => vv.elem [a, a])).sum ≠ 0
end

end Wicked
