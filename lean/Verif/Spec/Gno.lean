import Verif.Spec.NormalProduct
import Mathlib.Data.List.FinRange
/-! # Generalised normal order (Mukherjee, Kutzelnigg): reference states that are not a single determinant

A reference is given by its one-particle density matrix and its higher density cumulants. Contractions of two
operators are elements of the density matrix (particles) or of one minus the density matrix (holes), contractions
of more operators are cumulants. Generalised normal products are the operators that satisfy Wick's theorem with
these contractions. -/
namespace Wicked

/-! ## contractions of a list of objects -/

section
variable {α M R B : Type} [DecidableEq α]

/-- `(-1)` to the number of pairs that `P` lists in the opposite order of `L` -/
def listSign (L : List α) : List α → Int
  | [] => 1
  | y :: P => (-1) ^ (P.countP (fun z => decide (L.idxOf z < L.idxOf y))) * listSign L P

/-- the objects in `b`, from left to right -/
def partOf (L : List α) (b : Finset α) : List α := L.filter (fun x => decide (x ∈ b))
/-- the objects in none of the sets of `S`, from left to right -/
def restOf (L : List α) (S : Finset (Finset α)) : List α := L.filter (fun x => decide (∀ b ∈ S, x ∉ b))

open Classical in
/-- the sets of pairwise disjoint nonempty sets of objects of `L` -/
noncomputable def conSets (L : List α) : Finset (Finset (Finset α)) :=
  L.toFinset.powerset.powerset.filter (fun S => ∅ ∉ S ∧ ∀ b ∈ S, ∀ b' ∈ S, b ≠ b' → Disjoint b b')

variable [CommRing R] [AddCommGroup B] [Module R B]

/-- what a set of contractions contributes: the sign of writing the contracted objects first, the values `κ` of the
contractions, and `N` of the objects that are left over (`f` gives the operators) -/
noncomputable def conTerm (κ : List M → R) (N : List M → B) (f : α → M) (L : List α) (S : Finset (Finset α)) : B :=
  (((listSign L (S.toList.flatMap (partOf L) ++ restOf L S) : Int) : R) * ∏ b ∈ S, κ ((partOf L b).map f)) • N ((restOf L S).map f)

/-- the sum over all sets of contractions of a list of operators (that is, over sets of disjoint sets of positions) -/
noncomputable def conSum (κ : List M → R) (N : List M → B) (l : List M) : B :=
  ∑ S ∈ conSets (List.finRange l.length), conTerm κ N l.get (List.finRange l.length) S
end

/-! ## references -/

/-- the orbitals of the creation operators of a list, from left to right -/
def creOrbs {Ω : Type} (l : List (SQType × Ω)) : List Ω := l.filterMap (fun m => match m with | (.creation, p) => some p | (.annihilation, _) => none)
/-- the orbitals of the annihilation operators of a list, from left to right -/
def annOrbs {Ω : Type} (l : List (SQType × Ω)) : List Ω := l.filterMap (fun m => match m with | (.creation, _) => none | (.annihilation, q) => some q)

/-- `(-1)` to the number of pairs (annihilation operator, creation operator further right) -/
def creFirstSign {Ω : Type} : List (SQType × Ω) → Int
  | [] => 1
  | (.creation, _) :: l => creFirstSign l
  | (.annihilation, _) :: l => (-1) ^ (creOrbs l).length * creFirstSign l

/-- A reference: the density matrix `gamma p q` (of `a†_p a_q`) and the cumulants `cumulant [p₁, ..., p_k] [q₁, ..., q_k]`
(of `a†_{p₁} ... a†_{p_k} a_{q₁} ... a_{q_k}`), `k ≥ 2`. -/
structure Reference (Ω R : Type) where
  gamma : Ω → Ω → R
  cumulant : List Ω → List Ω → R

namespace Reference
variable {Ω R : Type} [DecidableEq Ω] [CommRing R]

/-- The contraction of a list of operators: `γ` for a creation operator followed by an annihilation operator, `1 - γ` for
the opposite order, a cumulant for `k ≥ 2` creation and `k` annihilation operators (with the sign of moving the creation
operators to the left), zero otherwise. -/
def contraction (ρ : Reference Ω R) : List (SQType × Ω) → R
  | [(.creation, p), (.annihilation, q)] => ρ.gamma p q
  | [(.annihilation, q), (.creation, p)] => (if p = q then 1 else 0) - ρ.gamma p q
  | l => if 2 ≤ (creOrbs l).length ∧ (creOrbs l).length = (annOrbs l).length then
      ((creFirstSign l : Int) : R) * ρ.cumulant (creOrbs l) (annOrbs l) else 0

/-- cumulants are antisymmetric -/
def Antisymmetric (ρ : Reference Ω R) : Prop :=
  (∀ pre a b post u, ρ.cumulant (pre ++ a :: b :: post) u = - ρ.cumulant (pre ++ b :: a :: post) u) ∧
  (∀ l pre a b post, ρ.cumulant l (pre ++ a :: b :: post) = - ρ.cumulant l (pre ++ b :: a :: post))
end Reference

section
variable {Ω R B : Type} [DecidableEq Ω] [CommRing R] [Ring B] [Algebra R B]

/-- `N` gives the generalised normal products with respect to `ρ`: every product of operators is the sum over all sets of
contractions of the normal products of the operators that are left over. (Since the set may be empty, this determines
`N` recursively.) -/
def IsGNO (op : SQType → Ω → B) (ρ : Reference Ω R) (N : List (SQType × Ω) → B) : Prop :=
  ∀ l, (l.map (fun m => op m.1 m.2)).prod = conSum ρ.contraction N l

/-- `φ` is the expectation value of a state with reference `ρ`: the expectation value of every product of
operators is the sum over all sets of contractions that leave nothing over. (This is the definition of cumulants.) -/
def IsReferenceState (op : SQType → Ω → B) (ρ : Reference Ω R) (φ : B →ₗ[R] R) : Prop :=
  ∀ l, φ (l.map (fun m => op m.1 m.2)).prod = conSum ρ.contraction (fun r => if r.isEmpty then (1 : R) else 0) l

end

namespace OrbSystem
variable {Ω R B : Type} [Inhabited Ω] [DecidableEq Ω] [CommRing R] [Ring B] [Algebra R B]

/-- value of a term whose operators stand for their normal product `N`: the sum over all orbitals of its indices
of the tensor elements times the normal product -/
def normalValueOf (v : OrbSystem Ω R B) (N : List (SQType × Ω) → B) (t : STerm) : B :=
  sumOver t.allIdx.toFinset (fun i => v.dom i.space) (fun σ =>
    (t.tensors.map (fun x => v.T x.label (x.lower.map σ) (x.upper.map σ))).prod • N (t.ops.map (fun a => (a.type, σ a.index))))

/-- value of an operator: `1 / ∏ₛ cre(s)! ann(s)!` times the sum over the orbitals of its second-quantized
operators of the tensor element times their normal product `N` -/
def opValueOf [Algebra ℚ B] (v : OrbSystem Ω R B) (N : List (SQType × Ω) → B) (ns : Nat) (p : Operator) : B :=
  ((1 : ℚ) / (((List.range ns).map (fun s => ((p.gm.cre s).toNat.factorial : ℚ))).prod *
      ((List.range ns).map (fun s => ((p.gm.ann s).toNat.factorial : ℚ))).prod)) •
    sumOver (opSlots ns 0 p).toFinset (fun y => v.dom y.space) (fun x =>
      v.T p.label ((creSlots ns 0 p).map x) ((annSlots ns 0 p).map x) • N ((opSlots ns 0 p).map (fun y => (y.type, x y))))

/-- The reference has the form the package assumes: different spaces have no orbital in common and are not
correlated; the orbitals of occupied (unoccupied) spaces are occupied (unoccupied); the tensors `gamma1`, `eta1`,
`lambda2`, `lambda3`, ... have as elements the density matrix, one minus the density matrix and the cumulants of the general
spaces; cumulants of more than `maxCumulant` particles vanish. -/
structure HasReference (v : OrbSystem Ω R B) (o : OSI) (maxCumulant : Int) (ρ : Reference Ω R) : Prop where
  disjoint : ∀ s s' : Nat, s < o.spaces.length → s' < o.spaces.length → s ≠ s' → ∀ x ∈ v.dom s, x ∉ v.dom s'
  occupied : ∀ s : Nat, s < o.spaces.length → o.spaceType s = .ok .occupied → ∀ p ∈ v.dom s, ∀ q ∈ v.dom s, ρ.gamma p q = if p = q then 1 else 0
  unoccupied : ∀ s : Nat, s < o.spaces.length → o.spaceType s = .ok .unoccupied → ∀ p ∈ v.dom s, ∀ q ∈ v.dom s, ρ.gamma p q = 0
  gamma1 : ∀ s : Nat, s < o.spaces.length → o.spaceType s = .ok .general → ∀ p ∈ v.dom s, ∀ q ∈ v.dom s, v.T "gamma1".toList [q] [p] = ρ.gamma p q
  eta1 : ∀ s : Nat, s < o.spaces.length → o.spaceType s = .ok .general → ∀ p ∈ v.dom s, ∀ q ∈ v.dom s,
    v.T "eta1".toList [q] [p] = (if p = q then 1 else 0) - ρ.gamma p q
  lambda : ∀ s : Nat, s < o.spaces.length → o.spaceType s = .ok .general → ∀ ps qs, ps.length = qs.length → 2 ≤ ps.length →
    (∀ p ∈ ps, p ∈ v.dom s) → (∀ q ∈ qs, q ∈ v.dom s) → v.T ("lambda".toList ++ intStr ps.length) qs.reverse ps = ρ.cumulant ps qs
  uncorrelated_gamma : ∀ s s' : Nat, s < o.spaces.length → s' < o.spaces.length → s ≠ s' → ∀ p ∈ v.dom s, ∀ q ∈ v.dom s', ρ.gamma p q = 0
  uncorrelated : ∀ ps qs, ps.length = qs.length → 2 ≤ ps.length →
    (¬ ∃ s : Nat, s < o.spaces.length ∧ o.spaceType s = .ok .general ∧ (∀ p ∈ ps, p ∈ v.dom s) ∧ (∀ q ∈ qs, q ∈ v.dom s)) → ρ.cumulant ps qs = 0
  bounded : ∀ ps qs, maxCumulant < (ps.length : Int) → ρ.cumulant ps qs = 0

end OrbSystem

/-- a tensor with one lower and one upper index -/
def oneBody {Ω R : Type} [CommRing R] (F : Ω → Ω → R) : List Ω → List Ω → R
  | [q], [p] => F p q
  | _, _ => 0

/-- tensors that have the elements of a reference, and otherwise those of `T₀` -/
def refT {Ω R : Type} [DecidableEq Ω] [CommRing R] (ρ : Reference Ω R) (T₀ : Str → List Ω → List Ω → R) (lab : Str) (l u : List Ω) : R :=
  if lab = "gamma1".toList then oneBody ρ.gamma l u
  else if lab = "eta1".toList then oneBody (fun p q => (if p = q then 1 else 0) - ρ.gamma p q) l u
  else if lab = "lambda".toList ++ intStr u.length ∧ l.length = u.length ∧ 2 ≤ u.length then ρ.cumulant u l.reverse
  else T₀ lab l u

end Wicked
