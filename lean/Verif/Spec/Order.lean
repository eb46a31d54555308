/-! Specification of what `std::map` and `std::sort` require of a comparator
(C++ standard, [alg.sorting.general]). -/
namespace Wicked.Spec

/-- strict weak ordering -/
structure IsStrictWeak {α : Type _} (lt : α → α → Bool) : Prop where
  irrefl : ∀ a, lt a a = false
  trans : ∀ a b c, lt a b = true → lt b c = true → lt a c = true
  incomp_trans : ∀ a b c, (lt a b = false ∧ lt b a = false) → (lt b c = false ∧ lt c b = false) →
    (lt a c = false ∧ lt c a = false)

/-- `eq` is exactly "neither is less" -/
def EqIsIncomparable {α : Type _} (lt eq : α → α → Bool) : Prop :=
  ∀ a b, eq a b = true ↔ (lt a b = false ∧ lt b a = false)

/-- incomparable values are identical -/
def IsTotal {α : Type _} (lt : α → α → Bool) : Prop :=
  ∀ a b, (lt a b = false ∧ lt b a = false) ↔ a = b

end Wicked.Spec
