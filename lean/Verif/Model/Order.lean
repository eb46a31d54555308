import Verif.Model.Basic
/-!
# Comparison, sorting and `std::map`

`CppLt α` plays the role of the C++ `operator<` found by overload resolution and `CppEq α`
that of `operator==`.  The instances for lists, pairs and strings are the ones the standard
library defines (lexicographic comparison, [alg.lex.comparison], [pairs.spec]); they use only
`operator<` of the components, as the C++ templates do.
-/
namespace Wicked

/-- C++ `operator<` -/
class CppLt (α : Type _) where
  lt : α → α → Bool

/-- C++ `operator==` -/
class CppEq (α : Type _) where
  eq : α → α → Bool

open CppLt CppEq

instance : CppLt Int := ⟨fun a b => decide (a < b)⟩
instance : CppEq Int := ⟨fun a b => decide (a = b)⟩
instance : CppLt Bool := ⟨fun a b => !a && b⟩
instance : CppEq Bool := ⟨fun a b => decide (a = b)⟩

/-- characters of a `std::string` are compared as unsigned bytes -/
instance : CppLt Char := ⟨fun a b => decide (a.toNat < b.toNat)⟩
instance : CppEq Char := ⟨fun a b => decide (a = b)⟩

/-- `std::lexicographical_compare` (`operator<` of `std::vector` and `std::string`, tensor.cc, symbolic_term.cc) -/
def lexLt {α : Type _} [CppLt α] : List α → List α → Bool
  | [], [] => false
  | [], _ :: _ => true
  | _ :: _, [] => false
  | a :: as, b :: bs => if lt a b then true else if lt b a then false else lexLt as bs

/-- `operator==` of `std::vector` (tensor.cc, symbolic_term.cc: operator==) -/
def listEq {α : Type _} [CppEq α] : List α → List α → Bool
  | [], [] => true
  | [], _ :: _ => false
  | _ :: _, [] => false
  | a :: as, b :: bs => eq a b && listEq as bs

instance {α : Type _} [CppLt α] : CppLt (List α) := ⟨lexLt⟩
instance {α : Type _} [CppEq α] : CppEq (List α) := ⟨listEq⟩

/-- `operator<` of `std::pair` (nested pairs also stand for `std::tuple`) -/
instance {α β : Type _} [CppLt α] [CppLt β] : CppLt (α × β) :=
  ⟨fun x y => lt x.1 y.1 || (!lt y.1 x.1 && lt x.2 y.2)⟩
instance {α β : Type _} [CppEq α] [CppEq β] : CppEq (α × β) :=
  ⟨fun x y => eq x.1 y.1 && eq x.2 y.2⟩

/-- position at which a stable sort puts `a` (part of `std::sort`, tensor.cc:59, symbolic_term.cc:166) -/
def insertBy {α : Type _} (lt : α → α → Bool) (a : α) : List α → List α
  | [] => [a]
  | b :: l => if lt b a then b :: insertBy lt a l else a :: b :: l

/-- `std::sort` with comparator `lt`.  The standard only promises a sorted rearrangement; the
model returns the stable one.  `Proofs/Order.lean: stdSortBy_unique` shows that the result is the
only sorted rearrangement whenever `lt` distinguishes the elements. (wick_theorem_canonicalize_graph.cc:239) -/
def stdSortBy {α : Type _} (lt : α → α → Bool) (l : List α) : List α := l.foldr (insertBy lt) []

/-- `std::sort` with `operator<` (tensor.cc:59, symbolic_term.cc:166, 477) -/
def stdSort {α : Type _} [CppLt α] (l : List α) : List α := stdSortBy lt l

/-- `std::sort(v.rbegin(), v.rend())` (index.cc:43, sqoperator.cc:140) -/
def stdSortRev {α : Type _} [CppLt α] (l : List α) : List α := (stdSort l.reverse).reverse

/-- `std::unique` followed by `erase`: drops every element equal to its predecessor (tensor.cc:60) -/
def stdUnique {α : Type _} [CppEq α] : List α → List α
  | [] => []
  | [a] => [a]
  | a :: b :: l => if eq a b then stdUnique (a :: l) else a :: stdUnique (b :: l)
termination_by l => l.length

/-- `enumerate` (helpers/stl_utils.hpp) starting from `n`, as pairs (element, position) -/
def enumFrom {α : Type _} (n : Int) : List α → List (α × Int)
  | [] => []
  | a :: l => (a, n) :: enumFrom (n + 1) l

/-! ## `std::map` -/

/-- contents of a `std::map<K,V>`: entries in iteration order (helpers/algebra.hpp, symbolic_term.cc) -/
abbrev SMap (κ ν : Type _) := List (κ × ν)

namespace SMap
variable {κ ν : Type _} [CppLt κ]

/-- `std::map::find`: descend to the first key not less than `k`, then test equivalence (helpers/algebra.hpp:20-150) -/
def find (k : κ) : SMap κ ν → Option ν
  | [] => none
  | (k', v) :: m => if lt k' k then find k m else if lt k k' then none else some v

/-- `m[key] = value` : overwrite the value of an equivalent key (the stored key is kept) or insert (helpers/algebra.hpp:20-150) -/
def insert (k : κ) (v : ν) : SMap κ ν → SMap κ ν
  | [] => [(k, v)]
  | (k', v') :: m =>
    if lt k' k then (k', v') :: insert k v m
    else if lt k k' then (k, v) :: (k', v') :: m
    else (k', v) :: m

/-- `m.erase(m.find(key))` (helpers/algebra.hpp:20-150) -/
def erase (k : κ) : SMap κ ν → SMap κ ν
  | [] => []
  | (k', v') :: m =>
    if lt k' k then (k', v') :: erase k m
    else if lt k k' then (k', v') :: m
    else m

/-- `operator==` of `std::map` : same length and pairwise equal entries (helpers/algebra.hpp: operator==) -/
def equal [CppEq κ] [CppEq ν] (m m' : SMap κ ν) : Bool := listEq m m'

end SMap
end Wicked
