import Mathlib.Data.Finset.Powerset
import Mathlib.Data.Finset.Pi
import Mathlib.Algebra.BigOperators.Pi
import Mathlib.Algebra.BigOperators.Group.Finset.Sigma
import Mathlib.Algebra.Order.BigOperators.Group.Finset
import Mathlib.Data.Nat.Choose.Basic
import Mathlib.Data.Fintype.BigOperators
import Mathlib.Data.Rat.Cast.Order
import Mathlib.Tactic.FieldSimp
import Mathlib.Tactic.Ring
import Mathlib.Tactic.Positivity
import Mathlib.Algebra.BigOperators.GroupWithZero.Finset
import Mathlib.Algebra.BigOperators.Ring.Finset
import Mathlib.Algebra.BigOperators.Ring.Multiset
import Mathlib.Algebra.BigOperators.Associated
import Mathlib.Data.Nat.Cast.Basic
import Mathlib.Tactic.LinearCombination
/-! Counting sets of disjoint subsets with prescribed numbers of elements of each kind -/
namespace Wicked.Count
open Finset
open scoped Classical

variable {α κ : Type} (cls : α → κ)

/-- number of elements of kind `k` -/
noncomputable def lc (b : Finset α) (k : κ) : ℕ := (b.filter (fun x => cls x = k)).card

/-- number of subsets with prescribed numbers of elements of each kind -/
theorem card_subsets (Y : Finset α) (K : Finset κ) (hK : ∀ x ∈ Y, cls x ∈ K) (f : κ → ℕ) (hf : ∀ k ∉ K, f k = 0) :
    (Y.powerset.filter (fun b => lc cls b = f)).card = ∏ k ∈ K, (lc cls Y k).choose (f k) := by
  have h1 : ∏ k ∈ K, (lc cls Y k).choose (f k) = (K.pi (fun k => (Y.filter (fun x => cls x = k)).powersetCard (f k))).card := by
    rw [card_pi]
    apply prod_congr rfl
    intro k _
    rw [card_powersetCard]; rfl
  rw [h1]
  refine card_bij' (fun b _ => fun k _ => b.filter (fun x => cls x = k)) (fun g _ => Y.filter (fun x => ∃ h : cls x ∈ K, x ∈ g (cls x) h)) ?_ ?_ ?_ ?_
  · intro b hb
    rw [mem_filter, mem_powerset] at hb
    rw [mem_pi]
    intro k hk
    rw [mem_powersetCard]
    exact ⟨filter_subset_filter _ hb.1, congrFun hb.2 k⟩
  · intro g hg
    rw [mem_pi] at hg
    rw [mem_filter, mem_powerset]
    refine ⟨filter_subset _ _, ?_⟩
    funext k
    unfold lc
    by_cases hk : k ∈ K
    · have h2 := mem_powersetCard.1 (hg k hk)
      rw [← h2.2]
      congr 1
      ext x
      simp only [mem_filter]
      constructor
      · rintro ⟨⟨_, h, hx⟩, rfl⟩; exact hx
      · intro hx
        have hm := mem_filter.1 (h2.1 hx)
        obtain ⟨hm, rfl⟩ := hm
        exact ⟨⟨hm, hk, hx⟩, rfl⟩
    · rw [hf k hk, card_eq_zero, filter_eq_empty_iff]
      intro x hx he
      obtain ⟨_, h, _⟩ := mem_filter.1 hx
      exact hk (he ▸ h)
  · intro b hb
    rw [mem_filter, mem_powerset] at hb
    ext x
    simp only [mem_filter]
    constructor
    · rintro ⟨_, _, h, _⟩; exact h
    · intro h; exact ⟨hb.1 h, hK x (hb.1 h), h, (by trivial)⟩
  · intro g hg
    rw [mem_pi] at hg
    funext k hk
    have h2 := mem_powersetCard.1 (hg k hk)
    ext x
    simp only [mem_filter]
    constructor
    · rintro ⟨⟨_, h, hx⟩, rfl⟩; exact hx
    · intro hx
      obtain ⟨hm, rfl⟩ := mem_filter.1 (h2.1 hx)
      exact ⟨⟨hm, hk, hx⟩, rfl⟩

/-- sets of disjoint subsets of `L` with the numbers of elements prescribed by `M` -/
noncomputable def reals (L : Finset α) (M : Multiset (κ → ℕ)) : Finset (Finset (Finset α)) :=
  L.powerset.powerset.filter (fun S => (∀ b ∈ S, ∀ b' ∈ S, b ≠ b' → Disjoint b b') ∧ S.val.map (lc cls) = M)

theorem mem_reals {L : Finset α} {M : Multiset (κ → ℕ)} {S : Finset (Finset α)} : S ∈ reals cls L M ↔
    (∀ b ∈ S, b ⊆ L) ∧ (∀ b ∈ S, ∀ b' ∈ S, b ≠ b' → Disjoint b b') ∧ S.val.map (lc cls) = M := by
  unfold reals
  rw [mem_filter, mem_powerset]
  constructor
  · rintro ⟨h1, h2⟩; exact ⟨fun b hb => mem_powerset.1 (h1 hb), h2⟩
  · rintro ⟨h1, h2⟩; exact ⟨fun b hb => mem_powerset.2 (h1 b hb), h2⟩

theorem lc_sdiff {L : Finset α} {S : Finset (Finset α)} (h : ∀ b ∈ S, b ⊆ L) (hd : ∀ b ∈ S, ∀ b' ∈ S, b ≠ b' → Disjoint b b') (k : κ) :
    lc cls (L \ S.biUnion id) k = lc cls L k - (S.val.map (fun b => lc cls b k)).sum := by
  unfold lc
  have h1 : (L \ S.biUnion id).filter (fun x => cls x = k) = L.filter (fun x => cls x = k) \ S.biUnion (fun b => b.filter (fun x => cls x = k)) := by
    ext x
    simp only [mem_filter, mem_sdiff, mem_biUnion, id, not_exists, not_and]
    constructor
    · rintro ⟨⟨h1, h2⟩, h3⟩; exact ⟨⟨h1, h3⟩, fun b hb hx _ => h2 b hb hx⟩
    · rintro ⟨⟨h1, h2⟩, h3⟩; exact ⟨⟨h1, fun b hb hx => h3 b hb hx h2⟩, h2⟩
  rw [h1, card_sdiff_of_subset, card_biUnion]
  · rfl
  · intro b hb b' hb' hne
    exact (hd b hb b' hb' hne).mono (filter_subset _ _) (filter_subset _ _)
  · intro x hx
    rw [mem_biUnion] at hx
    obtain ⟨b, hb, hx⟩ := hx
    rw [mem_filter] at hx ⊢
    exact ⟨h b hb hx.1, hx.2⟩

theorem card_step (L : Finset α) (K : Finset κ) (hK : ∀ x ∈ L, cls x ∈ K) (f : κ → ℕ) (hf : ∀ k ∉ K, f k = 0) (hf0 : f ≠ 0) (M : Multiset (κ → ℕ)) :
    (reals cls L (f ::ₘ M)).card * (M.count f + 1) =
      (reals cls L M).card * ∏ k ∈ K, (lc cls L k - (M.map (fun g => g k)).sum).choose (f k) := by
  -- pairs of a set and one of its elements
  have c1 : ((reals cls L (f ::ₘ M)).sigma (fun S => S.filter (fun b => lc cls b = f))).card = (reals cls L (f ::ₘ M)).card * (M.count f + 1) := by
    rw [card_sigma, sum_const_nat]
    intro S hS
    have h := ((mem_reals cls).1 hS).2.2
    have h2 : Multiset.count f (S.val.map (lc cls)) = M.count f + 1 := by rw [h, Multiset.count_cons_self]
    rw [Multiset.count_map] at h2
    rw [← h2, card_def, filter_val]
    simp only [eq_comm]
  have c2 : ((reals cls L M).sigma (fun S => (L \ S.biUnion id).powerset.filter (fun b => lc cls b = f))).card =
      (reals cls L M).card * ∏ k ∈ K, (lc cls L k - (M.map (fun g => g k)).sum).choose (f k) := by
    rw [card_sigma, sum_const_nat]
    intro S hS
    obtain ⟨h1, h2, h3⟩ := (mem_reals cls).1 hS
    rw [card_subsets cls _ K (fun x hx => hK x (mem_sdiff.1 hx).1) f hf]
    apply prod_congr rfl
    intro k _
    rw [lc_sdiff cls h1 h2, ← h3, Multiset.map_map]
    rfl
  rw [← c1, ← c2]
  have hne : ∀ b : Finset α, lc cls b = f → b.Nonempty := by
    intro b hb
    rw [nonempty_iff_ne_empty]
    rintro rfl
    apply hf0
    rw [← hb]
    funext k
    simp [lc]
  refine card_bij' (fun p _ => ⟨p.1.erase p.2, p.2⟩) (fun p _ => ⟨insert p.2 p.1, p.2⟩) ?_ ?_ ?_ ?_
  · rintro ⟨S, b⟩ h
    rw [mem_sigma, mem_filter, mem_reals] at h
    obtain ⟨⟨h1, h2, h3⟩, hb, hbf⟩ := h
    rw [mem_sigma, mem_filter, mem_reals, mem_powerset]
    simp only at *
    refine ⟨⟨fun c hc => h1 c (mem_of_mem_erase hc), fun c hc c' hc' => h2 c (mem_of_mem_erase hc) c' (mem_of_mem_erase hc'), ?_⟩, ?_, hbf⟩
    · have : S.val = b ::ₘ (S.erase b).val := by rw [erase_val, Multiset.cons_erase hb]
      rw [this, Multiset.map_cons, hbf] at h3
      exact (Multiset.cons_inj_right _).1 h3
    · intro x hx
      rw [mem_sdiff, mem_biUnion]
      refine ⟨h1 b hb hx, ?_⟩
      rintro ⟨c, hc, hxc⟩
      exact disjoint_left.1 (h2 b hb c (mem_of_mem_erase hc) (ne_of_mem_erase hc).symm) hx hxc
  · rintro ⟨S, b⟩ h
    rw [mem_sigma, mem_filter, mem_reals, mem_powerset] at h
    obtain ⟨⟨h1, h2, h3⟩, hb, hbf⟩ := h
    simp only at *
    have hd : ∀ c ∈ S, Disjoint b c := by
      intro c hc
      rw [disjoint_left]
      intro x hx hxc
      exact (mem_sdiff.1 (hb hx)).2 (mem_biUnion.2 ⟨c, hc, hxc⟩)
    have hbS : b ∉ S := by
      intro hbS
      obtain ⟨x, hx⟩ := hne b hbf
      exact disjoint_left.1 (hd b hbS) hx hx
    rw [mem_sigma, mem_filter, mem_reals]
    refine ⟨⟨?_, ?_, ?_⟩, mem_insert_self _ _, hbf⟩
    · intro c hc
      rcases mem_insert.1 hc with rfl | hc
      · exact fun x hx => (mem_sdiff.1 (hb hx)).1
      · exact h1 c hc
    · intro c hc c' hc' hne
      rcases mem_insert.1 hc with rfl | hcS
      · rcases mem_insert.1 hc' with rfl | hc'
        · exact absurd rfl hne
        · exact hd c' hc'
      · rcases mem_insert.1 hc' with rfl | hc'
        · exact (hd c hcS).symm
        · exact h2 c hcS c' hc' hne
    · rw [insert_val_of_notMem hbS, Multiset.map_cons, h3, hbf]
  · rintro ⟨S, b⟩ h
    rw [mem_sigma, mem_filter] at h
    simp only at *
    rw [insert_erase h.2.1]
  · rintro ⟨S, b⟩ h
    rw [mem_sigma, mem_filter, mem_powerset] at h
    obtain ⟨_, hb, hbf⟩ := h
    simp only at *
    have hbS : b ∉ S := by
      intro hbS
      obtain ⟨x, hx⟩ := hne b hbf
      exact (mem_sdiff.1 (hb hx)).2 (mem_biUnion.2 ⟨b, hbS, hx⟩)
    rw [erase_insert hbS]

/-- product of the factorials of the multiplicities -/
noncomputable def multFact (M : Multiset (κ → ℕ)) : ℕ := ∏ f ∈ M.toFinset, (M.count f).factorial

theorem multFact_cons (f : κ → ℕ) (M : Multiset (κ → ℕ)) : multFact (f ::ₘ M) = (M.count f + 1) * multFact M := by
  have key : ∀ (T : Finset (κ → ℕ)) (M : Multiset (κ → ℕ)), M.toFinset ⊆ T → ∏ f ∈ T, (M.count f).factorial = multFact M := by
    intro T M h
    unfold multFact
    symm
    apply prod_subset h
    intro g _ hg
    rw [Multiset.mem_toFinset] at hg
    rw [Multiset.count_eq_zero_of_notMem hg, Nat.factorial_zero]
  have hs : M.toFinset ⊆ (f ::ₘ M).toFinset := by
    intro g hg; rw [Multiset.mem_toFinset] at *; exact Multiset.mem_cons_of_mem hg
  rw [← key _ M hs]
  unfold multFact
  have hf : f ∈ (f ::ₘ M).toFinset := by simp
  rw [← mul_prod_erase _ _ hf, ← mul_prod_erase _ _ hf, Multiset.count_cons_self, Nat.factorial_succ, mul_assoc]
  congr 2
  apply prod_congr rfl
  intro g hg
  rw [Multiset.count_cons_of_ne (ne_of_mem_erase hg)]

/-- the number of ordered choices, as a multinomial coefficient -/
noncomputable def multinom (K : Finset κ) (n : κ → ℕ) (M : Multiset (κ → ℕ)) : ℚ :=
  ∏ k ∈ K, ((n k).factorial : ℚ) / (((M.map (fun g => ((g k).factorial : ℚ))).prod) * ((n k - (M.map (fun g => g k)).sum).factorial : ℚ))

theorem multinom_cons (K : Finset κ) (n : κ → ℕ) (f : κ → ℕ) (M : Multiset (κ → ℕ)) (h : ∀ k ∈ K, ((f ::ₘ M).map (fun g => g k)).sum ≤ n k) :
    multinom K n (f ::ₘ M) = multinom K n M * ∏ k ∈ K, (((n k - (M.map (fun g => g k)).sum).choose (f k) : ℕ) : ℚ) := by
  unfold multinom
  rw [← prod_mul_distrib]
  apply prod_congr rfl
  intro k hk
  have h1 := h k hk
  rw [Multiset.map_cons, Multiset.sum_cons] at h1
  simp only [Multiset.map_cons, Multiset.sum_cons, Multiset.prod_cons]
  generalize (M.map (fun g => g k)).sum = t at *
  have hz : (M.map (fun g => ((g k).factorial : ℚ))).prod ≠ 0 := by
    refine Multiset.prod_ne_zero ?_
    rw [Multiset.mem_map]
    rintro ⟨g, _, hg⟩
    exact (Nat.cast_ne_zero.2 (Nat.factorial_ne_zero _)) hg
  generalize (M.map (fun g => ((g k).factorial : ℚ))).prod = P at *
  have hc := Nat.choose_mul_factorial_mul_factorial (show f k ≤ n k - t by omega)
  have e : n k - t - f k = n k - (f k + t) := by omega
  rw [e] at hc
  have hc' : (((n k - t).choose (f k) : ℕ) : ℚ) * (f k).factorial * (n k - (f k + t)).factorial = (n k - t).factorial := by exact_mod_cast hc
  have a1 : ((f k).factorial : ℚ) ≠ 0 := Nat.cast_ne_zero.2 (Nat.factorial_ne_zero _)
  have a2 : ((n k - (f k + t)).factorial : ℚ) ≠ 0 := Nat.cast_ne_zero.2 (Nat.factorial_ne_zero _)
  have a3 : ((n k - t).factorial : ℚ) ≠ 0 := Nat.cast_ne_zero.2 (Nat.factorial_ne_zero _)
  rw [div_mul_eq_mul_div, div_eq_div_iff (mul_ne_zero (mul_ne_zero a1 hz) a2) (mul_ne_zero hz a3), ← hc']
  ring

/-- **the number of sets with given numbers of elements, times the permutations of equal members, is the
multinomial coefficient** -/
theorem card_reals (L : Finset α) (K : Finset κ) (hK : ∀ x ∈ L, cls x ∈ K) (M : Multiset (κ → ℕ))
    (hf : ∀ f ∈ M, (∀ k ∉ K, f k = 0) ∧ f ≠ 0) (h : ∀ k ∈ K, (M.map (fun g => g k)).sum ≤ lc cls L k) :
    ((reals cls L M).card : ℚ) * multFact M = multinom K (lc cls L) M := by
  induction M using Multiset.induction_on with
  | empty =>
    have h1 : reals cls L (0 : Multiset (κ → ℕ)) = {∅} := by
      ext S
      rw [mem_reals, mem_singleton]
      constructor
      · rintro ⟨_, _, h⟩
        rw [Multiset.map_eq_zero] at h
        exact Finset.val_eq_zero.1 h
      · rintro rfl; simp
    rw [h1]
    unfold multFact multinom
    simp only [card_singleton, Multiset.toFinset_zero, prod_empty, Multiset.map_zero, Multiset.prod_zero, Multiset.sum_zero]
    symm
    rw [Nat.cast_one, mul_one]
    apply prod_eq_one
    intro k _
    rw [Nat.sub_zero, one_mul, div_self]
    exact Nat.cast_ne_zero.2 (Nat.factorial_ne_zero _)
  | cons f M ih =>
    have h' : ∀ k ∈ K, (M.map (fun g => g k)).sum ≤ lc cls L k := by
      intro k hk
      have := h k hk
      rw [Multiset.map_cons, Multiset.sum_cons] at this
      omega
    have hs := card_step cls L K hK f (hf f (by simp)).1 (hf f (by simp)).2 M
    rw [multinom_cons K _ f M h, ← ih (fun g hg => hf g (by simp [hg])) h', multFact_cons]
    have hs' : ((reals cls L (f ::ₘ M)).card : ℚ) * (M.count f + 1) = (reals cls L M).card * ∏ k ∈ K, (((lc cls L k - (M.map (fun g => g k)).sum).choose (f k) : ℕ) : ℚ) := by
      have h3 := congrArg (Nat.cast : ℕ → ℚ) hs
      rw [Nat.cast_mul, Nat.cast_mul, Nat.cast_prod, Nat.cast_add, Nat.cast_one] at h3
      exact h3
    rw [Nat.cast_mul, Nat.cast_add, Nat.cast_one]
    linear_combination (multFact M : ℚ) * hs'

end Wicked.Count
