import Verif.Spec.Fock
import Verif.Spec.OrbitalSum
import Mathlib.Algebra.Algebra.Rat
/-! # The canonical (anti)commutation relations of a system of orbitals -/
namespace Wicked

/-- exchange sign of two operators of spaces `s` and `s'`: -1 iff both spaces are fermionic -/
def spaceSign (o : OSI) (s s' : Int) : ℚ :=
  if o.fieldType s = .ok .fermion ∧ o.fieldType s' = .ok .fermion then -1 else 1

/-- the space is registered -/
def RegisteredSpace (o : OSI) (s : Int) : Prop := 0 ≤ s ∧ s.toNat < o.spaces.length

/-- The canonical (anti)commutation relations for the orbitals of the registered spaces: two operators of the same kind
commute up to the exchange sign, `a_x a†_y = ± a†_y a_x + δ_{xy}`, different spaces have no orbital in common, and the
tensor `delta` is the Kronecker delta. -/
structure OrbSystem.CCR {Ω R A : Type} [DecidableEq Ω] [CommRing R] [Ring A] [Algebra R A] [Algebra ℚ A]
    (v : OrbSystem Ω R A) (o : OSI) : Prop where
  same : ∀ s s', RegisteredSpace o s → RegisteredSpace o s' → ∀ x ∈ v.dom s, ∀ y ∈ v.dom s', ∀ k,
    v.op k x * v.op k y = spaceSign o s s' • (v.op k y * v.op k x)
  mixed : ∀ s s', RegisteredSpace o s → RegisteredSpace o s' → ∀ x ∈ v.dom s, ∀ y ∈ v.dom s',
    v.op .annihilation x * v.op .creation y = spaceSign o s s' • (v.op .creation y * v.op .annihilation x) + if x = y then 1 else 0
  disjoint : ∀ s s', RegisteredSpace o s → RegisteredSpace o s' → s ≠ s' → Disjoint (v.dom s) (v.dom s')
  delta : ∀ x y, v.T "delta".toList [x] [y] = if x = y then 1 else 0

/-- every index that is carried by both a creation and an annihilation operator of the term is also carried by a tensor -/
def STerm.PairsCarried (t : STerm) : Prop :=
  ∀ a ∈ t.ops, ∀ b ∈ t.ops, a.type ≠ b.type → a.index = b.index → ∃ x ∈ t.tensors, a.index ∈ x.lower ++ x.upper

end Wicked
