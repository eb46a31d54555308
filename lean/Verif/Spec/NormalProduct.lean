import Verif.Spec.WickSum
import Mathlib.Algebra.Algebra.Rat
/-! # Fermionic operators, normal products, and the value of an operator

The left-hand side of Wick's theorem: products of operators in an algebra with the canonical
anticommutation relations, and normal products with respect to a vacuum in which the orbitals in `hole` are
occupied. -/
namespace Wicked

/-- the canonical anticommutation relations -/
structure IsCAR {Ω B : Type} [DecidableEq Ω] [Ring B] (op : SQType → Ω → B) : Prop where
  same : ∀ s x y, op s x * op s y = -(op s y * op s x)
  mixed : ∀ x y, op .annihilation x * op .creation y + op .creation y * op .annihilation x = if x = y then 1 else 0

/-- does the operator annihilate the vacuum? Creation operators of occupied orbitals and annihilation
operators of unoccupied orbitals do. -/
def kills {Ω : Type} (hole : Ω → Bool) (m : SQType × Ω) : Bool :=
  match m.1 with
  | .creation => hole m.2
  | .annihilation => !hole m.2

/-- `(-1)` to the number of pairs (operator that annihilates the vacuum, one that does not further right) -/
def normalSign {Ω : Type} (hole : Ω → Bool) : List (SQType × Ω) → Int
  | [] => 1
  | m :: l => (if kills hole m then (-1) ^ (l.countP (fun n => !kills hole n)) else 1) * normalSign hole l

/-- The normal product of a list of operators: those that annihilate the vacuum are moved to the right of
the others, with a factor `-1` for every exchange. -/
def normalProd {Ω B : Type} [Ring B] (hole : Ω → Bool) (op : SQType → Ω → B) (l : List (SQType × Ω)) : B :=
  (normalSign hole l : B) * (((l.filter (fun m => !kills hole m)).map (fun m => op m.1 m.2)).prod *
    ((l.filter (fun m => kills hole m)).map (fun m => op m.1 m.2)).prod)

namespace OrbSystem
variable {Ω R B : Type} [Inhabited Ω] [CommRing R] [Ring B] [Algebra R B]

/-- value of a term whose operators stand for their normal product: the sum over all orbitals of its indices
of the tensor elements times the normal product -/
def normalValue (v : OrbSystem Ω R B) (hole : Ω → Bool) (t : STerm) : B :=
  sumOver t.allIdx.toFinset (fun i => v.dom i.space) (fun σ =>
    (t.tensors.map (fun x => v.T x.label (x.lower.map σ) (x.upper.map σ))).prod •
      normalProd hole v.op (t.ops.map (fun a => (a.type, σ a.index))))

/-- value of an operator: `1 / ∏ₛ cre(s)! ann(s)!` times the sum over the orbitals of its second-quantized
operators of the tensor element times their normal product -/
def opValue [Algebra ℚ B] (v : OrbSystem Ω R B) (hole : Ω → Bool) (ns : Nat) (p : Operator) : B :=
  ((1 : ℚ) / (((List.range ns).map (fun s => ((p.gm.cre s).toNat.factorial : ℚ))).prod *
      ((List.range ns).map (fun s => ((p.gm.ann s).toNat.factorial : ℚ))).prod)) •
    sumOver (opSlots ns 0 p).toFinset (fun y => v.dom y.space) (fun x =>
      v.T p.label ((creSlots ns 0 p).map x) ((annSlots ns 0 p).map x) •
        normalProd hole v.op ((opSlots ns 0 p).map (fun y => (y.type, x y))))

/-- The spaces are sets of orbitals that are all occupied or all unoccupied in the vacuum, as registered;
different spaces have no orbital in common. -/
structure Vacuum (v : OrbSystem Ω R B) (o : OSI) (hole : Ω → Bool) : Prop where
  kind : ∀ s : Nat, s < o.spaces.length →
    (o.spaceType s = .ok .occupied ∧ ∀ x ∈ v.dom s, hole x = true) ∨ (o.spaceType s = .ok .unoccupied ∧ ∀ x ∈ v.dom s, hole x = false)
  disjoint : ∀ s s' : Nat, s < o.spaces.length → s' < o.spaces.length → s ≠ s' → ∀ x ∈ v.dom s, x ∉ v.dom s'

/-- value of a term without operators: the sum over all orbitals of its indices of the tensor elements -/
def scalarValue (v : OrbSystem Ω R B) (t : STerm) : R :=
  sumOver t.allIdx.toFinset (fun i => v.dom i.space) (fun σ =>
    (t.tensors.map (fun x => v.T x.label (x.lower.map σ) (x.upper.map σ))).prod)

end OrbSystem

/-- `φ` is the expectation value in the vacuum: it is normalised, and vanishes if an operator that annihilates the
vacuum stands on the right, or the adjoint of one stands on the left -/
structure IsVacuumExpectation {Ω R B : Type} [CommRing R] [Ring B] [Algebra R B] (op : SQType → Ω → B) (hole : Ω → Bool) (φ : B →ₗ[R] R) : Prop where
  one : φ 1 = 1
  right : ∀ b s x, kills hole (s, x) = true → φ (b * op s x) = 0
  left : ∀ b s x, kills hole (s, x) = false → φ (op s x * b) = 0

end Wicked
