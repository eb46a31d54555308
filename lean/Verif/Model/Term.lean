import Verif.Model.Index
import Verif.Model.Order
import Verif.Model.Rational
/-!
# Second-quantized operators, tensors and symbolic terms
(wicked/algebra/sqoperator.cc, tensor.cc, symbolic_term.cc, symbolic_term_normal_order.cc,
and the index helpers of index.cc)
-/
namespace Wicked
open CppLt CppEq

/-- `Index::operator<` (index.cc:16-18) -/
instance : CppLt Index := ⟨Index.lt⟩
/-- `Index::operator==` (index.cc:12-14) -/
instance : CppEq Index := ⟨fun a b => decide (a = b)⟩

/-- `canonicalize_indices` (index.cc:35-54): new list and sign. -/
def canonicalizeIndices (indices : List Index) (reversed : Bool) : List Index × Int :=
  let idxPos := enumFrom 0 indices
  let sorted := if reversed then stdSortRev idxPos else stdSort idxPos
  (sorted.map Prod.fst, permutationSign (sorted.map Prod.snd))

/-- `counter[s] += 1` on a `std::vector<int>`: unchecked access. (symbolic_term.cc:171-240) -/
def incr (c : List Int) (s : Int) : Res (List Int) :=
  if 0 ≤ s ∧ s.toNat < c.length then .ok (c.modify s.toNat (· + 1)) else .error .ub

/-- `num_indices_per_space` (index.cc:106-112). -/
def numIndicesPerSpace (o : OSI) (indices : List Index) : Res (List Int) :=
  indices.foldlM (fun c i => incr c i.space) (List.replicate o.spaces.length 0)

/-- `index_map_t` (index.h:66) -/
abbrev IndexMap := SMap Index Index

/-- `if (idx_map.count(idx) > 0) idx = idx_map[idx]` (sqoperator.cc:40-44, tensor.cc:64-75) -/
def applyMap (m : IndexMap) (i : Index) : Index := (m.find i).getD i

/-- `enum class SQOperatorType` (sqoperator.h:9-12) -/
inductive SQType where
  | creation | annihilation
deriving DecidableEq, Repr

/-- `class SQOperator` (sqoperator.h:14-80) -/
structure SQOp where
  type : SQType
  index : Index
deriving DecidableEq, Repr

namespace SQOp

/-- `is_creation` (sqoperator.cc:27-29) -/
def isCre (a : SQOp) : Bool := decide (a.type = .creation)

/-- `is_quasiparticle_creation` (sqoperator.cc:31-34) -/
def isQpCre (o : OSI) (a : SQOp) : Res Bool := do
  let st ← o.spaceType a.index.space
  return if st = .occupied then !a.isCre else a.isCre

/-- `operator<` (sqoperator.cc:46-59) -/
def ltB (a b : SQOp) : Bool :=
  if a.isCre != b.isCre then a.isCre
  else if a.isCre then lt a.index b.index else lt b.index a.index

/-- `normal_ordered_less` (sqoperator.cc:61-76) -/
def normalOrderedLess (o : OSI) (a b : SQOp) : Res Bool := do
  let _ ← o.spaceType a.index.space
  let qa ← a.isQpCre o
  let qb ← b.isQpCre o
  if qa != qb then return qa
  if qa then return lt a.index b.index
  return lt b.index a.index

/-- `reindex` (sqoperator.cc:40-44) -/
def reindex (m : IndexMap) (a : SQOp) : SQOp := { a with index := applyMap m a.index }

/-- `adjoint` (sqoperator.cc:96-100) -/
def adjoint (a : SQOp) : SQOp := ⟨if a.isCre then .annihilation else .creation, a.index⟩

/-- `field_type` (sqoperator.cc:15-17) -/
def fieldType (o : OSI) (a : SQOp) : Res FieldType := o.fieldType a.index.space

/-- `commutator_factor` (sqoperator.cc:102-115) -/
def commutatorFactor (o : OSI) (a b : SQOp) : Res Rational := do
  let fa ← a.fieldType o
  let fb ← b.fieldType o
  return if fa = .fermion ∧ fb = .fermion then Rational.neg (Rational.ofInt 1) else Rational.ofInt 1

end SQOp

instance : CppLt SQOp := ⟨SQOp.ltB⟩
/-- `SQOperator::operator==` (sqoperator.cc:78-80): pair equality -/
instance : CppEq SQOp := ⟨fun a b => decide (a = b)⟩

/-- `canonicalize_sqops` (sqoperator.cc:132-151): new product and sign. -/
def canonicalizeSqops (sqops : List SQOp) (reversed : Bool) : List SQOp × Int :=
  let sqopPos := enumFrom 0 sqops
  let sorted := if reversed then stdSortRev sqopPos else stdSort sqopPos
  (sorted.map Prod.fst, permutationSign (sorted.map Prod.snd))

/-- `enum class SymmetryType` (tensor.h:10) -/
inductive Symmetry where
  | symmetric | antisymmetric | nonsymmetric
deriving DecidableEq, Repr

/-- `class Tensor` (tensor.h:14-91) -/
structure Tensor where
  label : Str
  lower : List Index
  upper : List Index
  symm : Symmetry
  conj : Bool := false
deriving DecidableEq, Repr

namespace Tensor

/-- `operator<` (tensor.cc:31-43); `label_ > other.label_` is `other.label_ < label_` -/
def ltB (a b : Tensor) : Bool :=
  if lt a.label b.label then true
  else if lt b.label a.label then false
  else if lt a.lower b.lower then true
  else if lt b.lower a.lower then false
  else lt a.upper b.upper

/-- `operator==` (tensor.cc:45-48) -/
def eqB (a b : Tensor) : Bool := eq a.label b.label && eq a.lower b.lower && eq a.upper b.upper

/-- `rank` (tensor.h:58) -/
def rank (t : Tensor) : Int := t.lower.length + t.upper.length

/-- `reindex` (tensor.cc:64-75) -/
def reindex (m : IndexMap) (t : Tensor) : Tensor :=
  { t with lower := t.lower.map (applyMap m), upper := t.upper.map (applyMap m) }

/-- `canonicalize` (tensor.cc:77-90): new tensor and phase. -/
def canonicalize (t : Tensor) : Res (Tensor × Rational) :=
  if t.symm = .nonsymmetric then .error .throw
  else
    let u := canonicalizeIndices t.upper false
    let l := canonicalizeIndices t.lower false
    let sign := Rational.mul (Rational.mul (Rational.ofInt 1) (Rational.ofInt u.2)) (Rational.ofInt l.2)
    .ok ({ t with lower := l.1, upper := u.1 },
      if t.symm = .antisymmetric then sign else Rational.ofInt 1)

/-- `adjoint` (tensor.cc:92-98) -/
def adjoint (t : Tensor) : Tensor := { t with conj := !t.conj }

/-- `indices` (tensor.cc:50-62) -/
def indices (t : Tensor) : List Index := stdUnique (stdSort (t.upper ++ t.lower))

end Tensor

instance : CppLt Tensor := ⟨Tensor.ltB⟩
instance : CppEq Tensor := ⟨Tensor.eqB⟩

/-- `class SymbolicTerm` (symbolic_term.h:17-122) -/
structure STerm where
  normalOrdered : Bool
  ops : List SQOp
  tensors : List Tensor
deriving DecidableEq, Repr

/-- `std::set_intersection` on sorted ranges (symbolic_term.cc:466-473) -/
def setIntersection {α : Type} [CppLt α] : List α → List α → List α
  | [], _ => []
  | _ :: _, [] => []
  | a :: as, b :: bs =>
    if lt a b then setIntersection as (b :: bs)
    else if lt b a then setIntersection (a :: as) bs
    else a :: setIntersection as bs
termination_by l l' => l.length + l'.length

namespace STerm

/-- `operator<` (symbolic_term.cc:359-367) -/
def ltB (a b : STerm) : Bool :=
  if lt b.tensors a.tensors then false
  else if lt a.tensors b.tensors then true
  else lt a.ops b.ops

/-- `operator==` (symbolic_term.cc:369-371) -/
def eqB (a b : STerm) : Bool := eq a.tensors b.tensors && eq a.ops b.ops

/-- `adjoint` (symbolic_term.cc:60-68, product.hpp: Product::adjoint) -/
def adjoint (t : STerm) : STerm :=
  ⟨t.normalOrdered, (t.ops.map SQOp.adjoint).reverse, t.tensors.map Tensor.adjoint⟩

/-- `operator*=` and `operator_product` (symbolic_term.cc:70-77, 295-357).  The flag of the
left factor is kept (it is false, otherwise the product throws). -/
def mul (l r : STerm) : Res STerm :=
  if l.normalOrdered && r.normalOrdered then .error .throw
  else if l.normalOrdered && !r.normalOrdered then .error .throw
  else if !l.normalOrdered && r.normalOrdered then .error .throw
  else .ok ⟨l.normalOrdered, l.ops ++ r.ops, l.tensors ++ r.tensors⟩

/-- `reindex` (symbolic_term.cc:96-103) -/
def reindex (m : IndexMap) (t : STerm) : STerm :=
  { t with ops := t.ops.map (SQOp.reindex m), tensors := t.tensors.map (Tensor.reindex m) }

/-- `is_vacuum_normal_ordered` (symbolic_term.cc:24-30): `std::is_sorted` -/
def isVacuumNormalOrdered (t : STerm) : Bool :=
  let rec go : List SQOp → Bool
    | [] => true
    | [_] => true
    | a :: b :: l => if lt b a then false else go (b :: l)
  go t.ops

/-- one entry of `tensor_connectivity`: (label, common indices per space) (symbolic_term.cc:451-479) -/
abbrev Conn := List (Str × List Int)

/-- `tensor_connectivity` (symbolic_term.cc:451-479).  The second intersection
(`common_upper_indices`) is computed and never used, so it is omitted. -/
def tensorConnectivity (o : OSI) (tensors : List Tensor) (t : Tensor) (upper : Bool) : Res Conn := do
  let indices := stdSort (if upper then t.upper else t.lower)
  let result ← (tensors.filter (fun x => !eq t x)).mapM (m := Except Fault) (fun x => do
    let indices2 := stdSort (if upper then x.lower else x.upper)
    let c ← numIndicesPerSpace o (setIntersection indices indices2)
    return (x.label, c))
  return stdSort result

/-- `score_t` (symbolic_term.cc:113-116) -/
abbrev Score := Str × Int × List Int × List Int × Conn × Conn × Tensor

/-- the score of one tensor (symbolic_term.cc:126-146) -/
def score (o : OSI) (tensors : List Tensor) (t : Tensor) : Res Score := do
  let low ← numIndicesPerSpace o t.lower
  let upp ← numIndicesPerSpace o t.upper
  let lc ← tensorConnectivity o tensors t false
  let uc ← tensorConnectivity o tensors t true
  return (t.label, t.rank, low, upp, lc, uc, t)

/-- state of the relabelling loop (symbolic_term.cc:176-182) -/
structure Relabel where
  sqopCount : List Int
  tensCount : List Int
  map : IndexMap

/-- the body of the relabelling loop for one tensor index (symbolic_term.cc:193-209, 211-225) -/
def relabelStep (opIdx : List Index) (st : Relabel) (l : Index) : Res Relabel :=
  match st.map.find l with
  | some _ => .ok st
  | none =>
    if opIdx.contains l then do
      let c ← incr st.sqopCount l.space
      return { st with sqopCount := c, map := st.map.insert l ⟨l.space, st.sqopCount.getD l.space.toNat 0⟩ }
    else do
      let c ← incr st.tensCount l.space
      return { st with tensCount := c, map := st.map.insert l ⟨l.space, st.tensCount.getD l.space.toNat 0⟩ }

/-- `simplify` (symbolic_term.cc:245-293): its result is ignored by the caller; its only
observable effect is the unchecked write `bits[pos]` into a `std::bitset<64>` for every tensor index
in a registered space. -/
def simplifyGuard (o : OSI) (tensors : List Tensor) : Res Unit :=
  if tensors.all (fun t => (t.upper ++ t.lower).all (fun i =>
      if 0 ≤ i.space ∧ i.space.toNat < o.spaces.length then decide (0 ≤ i.pos ∧ i.pos < 64) else true))
  then .ok () else .error .ub

/-- `canonicalize` (symbolic_term.cc:106-243): new term and factor.  `is_operator_index` is the
list of operator indices. -/
def canonicalize (o : OSI) (t : STerm) : Res (STerm × Rational) := do
  -- 1. sort the tensors
  let scores ← t.tensors.mapM (m := Except Fault) (score o t.tensors)
  let tensors := (stdSort scores).map (fun s => s.2.2.2.2.2.2)
  -- 2. relabel
  let zero : List Int := List.replicate o.spaces.length 0
  let tc ← t.ops.foldlM (fun c (a : SQOp) => incr c a.index.space) zero
  let opIdx := t.ops.map SQOp.index
  let st ← (tensors.flatMap (fun x => x.lower ++ x.upper)).foldlM (relabelStep opIdx) ⟨zero, tc, []⟩
  let t2 := reindex st.map { t with tensors := tensors }
  -- 3. sort tensor indices
  let ts ← t2.tensors.mapM (m := Except Fault) Tensor.canonicalize
  let f := ts.foldl (fun f p => Rational.mul f p.2) (Rational.ofInt 1)
  -- 4. sort operators
  let ops := canonicalizeSqops t2.ops false
  simplifyGuard o (ts.map Prod.fst)
  return (⟨t.normalOrdered, ops.1, ts.map Prod.fst⟩, Rational.mul f (Rational.ofInt ops.2))

/-- `std::adjacent_find` with predicate `p`: the list split around the first match (symbolic_term_normal_order.cc:37) -/
def adjFind {α : Type} (p : α → α → Bool) : List α → Option (List α × α × α × List α)
  | [] => none
  | [_] => none
  | a :: b :: l =>
    if p a b then some ([], a, b, l)
    else match adjFind p (b :: l) with
      | none => none
      | some (pre, x, y, post) => some (a :: pre, x, y, post)

/-- `has_no_adjacent_identical_terms` with `is_fermionic_operator_pair`
(helpers.h:189-199, symbolic_term_normal_order.cc:12-15); `and` short-circuits. -/
def noAdjacentIdentical (o : OSI) : List SQOp → Res Bool
  | [] => .ok true
  | [_] => .ok true
  | a :: b :: l =>
    if eq a b then do
      let fa ← a.fieldType o
      if fa = .fermion then return false
      noAdjacentIdentical o (b :: l)
    else noAdjacentIdentical o (b :: l)

/-- the delta tensor of symbolic_term_normal_order.cc:78-83 -/
def deltaTensor (a b : SQOp) : Tensor :=
  ⟨"delta".toList, [if b.isCre then a.index else b.index], [if b.isCre then b.index else a.index],
    .nonsymmetric, false⟩

/-- `recursive_vacuum_normal_order` (symbolic_term_normal_order.cc:17-89), returning the terms in the
order in which they are pushed.  The first argument is fuel (C28 shows it never runs out when it is
at least `vnoFuel`). -/
def vnoAux (o : OSI) (onlySame : Bool) : Nat → STerm → Rational → Res (List (STerm × Rational))
  | 0, _, _ => .error .diverge
  | fuel + 1, term, c =>
    if term.ops.isEmpty then .ok [(term, c)]
    else do
      let valid ← noAdjacentIdentical o term.ops
      if !valid then return []
      match adjFind (fun a b => lt b a) term.ops with
      | none => return [(term, c)]
      | some (pre, a, b, post) =>
        let sign ← a.commutatorFactor o b
        let r1 ← vnoAux o onlySame fuel ⟨false, pre ++ b :: a :: post, term.tensors⟩ (Rational.mul c sign)
        if a.isCre != b.isCre && decide (a.index.space = b.index.space) then
          let same := decide (a.index = b.index)
          if !onlySame || same then
            let removed : STerm := ⟨false, pre ++ post,
              if same then term.tensors else term.tensors ++ [deltaTensor a b]⟩
            let r2 ← vnoAux o onlySame fuel removed c
            return r1 ++ r2
          else return r1
        else return r1

/-- enough fuel for a term with `n` operators (symbolic_term_normal_order.cc) -/
def vnoFuel (n : Nat) : Nat := n * n + n + 1

/-- `SymbolicTerm::vacuum_normal_order` (symbolic_term_normal_order.cc:91-97) -/
def vacuumNormalOrder (o : OSI) (onlySame : Bool) (t : STerm) : Res (List (STerm × Rational)) :=
  vnoAux o onlySame (vnoFuel t.ops.length) t (Rational.ofInt 1)

end STerm

instance : CppLt STerm := ⟨STerm.ltB⟩
instance : CppEq STerm := ⟨STerm.eqB⟩

end Wicked
