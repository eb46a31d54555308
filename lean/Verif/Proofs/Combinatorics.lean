import Verif.Model.Combinatorics
import Mathlib.Data.Nat.Choose.Basic
import Mathlib.Data.Nat.Choose.Central
import Mathlib.Data.Nat.Factorial.Basic
import Mathlib.Tactic.Ring
/-! # Lemmas about factorial and binomial -/
namespace Wicked

theorem intRange_succ (lo : Int) (k : Nat) :
    intRange lo (lo + k) = intRange lo (lo + k - 1) ++ [lo + k] := by
  unfold intRange
  have h1 : (lo + k - lo + 1).toNat = k + 1 := by omega
  have h2 : (lo + k - 1 - lo + 1).toNat = k := by omega
  rw [h1, h2, List.range_succ, List.map_append]; rfl

theorem intRange_empty {lo hi : Int} (h : hi < lo) : intRange lo hi = [] := by
  unfold intRange
  have : (hi - lo + 1).toNat = 0 := by omega
  rw [this]; rfl

theorem mem_intRange {lo hi i : Int} : i ∈ intRange lo hi ↔ lo ≤ i ∧ i ≤ hi := by
  unfold intRange
  simp only [List.mem_map, List.mem_range]
  constructor
  · rintro ⟨k, hk, rfl⟩; omega
  · intro h; exact ⟨(i - lo).toNat, by omega, by omega⟩

theorem factorial_nat (n : Nat) : factorial n = (n.factorial : Int) := by
  induction n with
  | zero => rfl
  | succ n ih =>
    cases n with
    | zero => rfl
    | succ n =>
      have e : ((n + 1 + 1 : Nat) : Int) = 2 + (n : Int) := by omega
      unfold factorial at ih ⊢
      rw [e, intRange_succ, List.foldl_append]
      have e2 : (2 + (n : Int) - 1) = ((n + 1 : Nat) : Int) := by omega
      rw [e2, ih, Nat.factorial_succ (n + 1)]
      simp only [List.foldl_cons, List.foldl_nil]
      push_cast
      ring

theorem factorial_neg {n : Int} (h : n < 2) : factorial n = 1 := by
  unfold factorial; rw [intRange_empty h]; rfl

/-- the loop of `binomial` computes binomials, with exact divisions -/
theorem binomialLoop_nat (n k : Nat) (hk : 1 ≤ k) (hkn : k ≤ n) : binomialLoop n k = (n.choose k : Int) := by
  obtain ⟨k, rfl⟩ : ∃ j, k = j + 1 := ⟨k - 1, by omega⟩
  induction k with
  | zero => simp [binomialLoop, intRange_empty]
  | succ k ih =>
    have ih := ih (by omega) (by omega)
    have e : ((k + 1 + 1 : Nat) : Int) = 2 + (k : Int) := by omega
    unfold binomialLoop at ih ⊢
    rw [e, intRange_succ, List.foldl_append]
    have e2 : (2 + (k : Int) - 1) = ((k + 1 : Nat) : Int) := by omega
    rw [e2, ih]
    simp only [List.foldl_cons, List.foldl_nil]
    have e3 : ((n.choose (k + 1) : Int) * (n - (2 + (k : Int)) + 1)) = (n.choose (k + 2) : Int) * (2 + k) := by
      have := Nat.choose_succ_right_eq n (k + 1)
      have h2 : (n - (2 + (k : Int)) + 1) = ((n - (k + 1) : Nat) : Int) := by omega
      rw [h2]
      have h3 : (2 + (k : Int)) = ((k + 1 + 1 : Nat) : Int) := by omega
      rw [h3]
      exact_mod_cast this.symm
    rw [e3, Int.mul_tdiv_cancel _ (by omega)]

theorem binomial_nat (n k : Nat) : binomial n k = (n.choose k : Int) := by
  unfold binomial
  by_cases h : k > n
  · have : (k : Int) > n := by omega
    rw [if_pos this, Nat.choose_eq_zero_of_lt h]; rfl
  · rw [if_neg (by omega)]
    simp only
    by_cases h2 : k * 2 > n
    · have e : (if (k : Int) * 2 > n then (n : Int) - k else k) = ((n - k : Nat) : Int) := by
        rw [if_pos (by omega)]; omega
      rw [e]
      by_cases h3 : n - k = 0
      · have : n = k := by omega
        subst this; simp
      · rw [if_neg (by simpa using h3), binomialLoop_nat n (n - k) (by omega) (by omega),
          Nat.choose_symm (by omega)]
    · have e : (if (k : Int) * 2 > n then (n : Int) - k else k) = (k : Int) := by
        rw [if_neg (by omega)]
      rw [e]
      by_cases h3 : k = 0
      · subst h3; simp
      · rw [if_neg (by simpa using h3), binomialLoop_nat n k (by omega) (by omega)]

/-- `long long` factorial: exact as long as the result fits -/
theorem factorialM_ok (n : Nat) (h : (n.factorial : Int) ≤ 9223372036854775807) :
    factorialM n = .ok (n.factorial : Int) := by
  induction n with
  | zero => rfl
  | succ n ih =>
    have ih := ih (le_trans (by exact_mod_cast Nat.factorial_le (Nat.le_succ n)) h)
    cases n with
    | zero => rfl
    | succ n =>
      have e : ((n + 1 + 1 : Nat) : Int) = 2 + (n : Int) := by omega
      unfold factorialM at ih ⊢
      rw [e, intRange_succ, List.foldlM_append]
      have e2 : (2 + (n : Int) - 1) = ((n + 1 : Nat) : Int) := by omega
      rw [e2, ih]
      have e4 : (((n + 1).factorial : Nat) : Int) * (2 + (n : Int)) = (((n + 1 + 1).factorial : Nat) : Int) := by
        rw [Nat.factorial_succ (n + 1)]; push_cast; ring
      simp only [bind, Except.bind, List.foldlM_cons, List.foldlM_nil]
      rw [e4]
      have h0 : (0 : Int) ≤ (((n + 1 + 1).factorial : Nat) : Int) := Int.natCast_nonneg _
      unfold chk64
      rw [if_pos ⟨by omega, h⟩]; rfl

theorem factorialM_overflow (n : Nat) (h : 21 ≤ n) : factorialM n = .error .ub := by
  obtain ⟨k, rfl⟩ : ∃ k, n = 21 + k := ⟨n - 21, by omega⟩
  induction k with
  | zero => decide
  | succ k ih =>
    have ih := ih (by omega)
    unfold factorialM at ih ⊢
    have e : ((21 + (k + 1) : Nat) : Int) = 2 + ((20 + k : Nat) : Int) := by omega
    rw [e, intRange_succ, List.foldlM_append]
    have e2 : (2 + ((20 + k : Nat) : Int) - 1) = ((21 + k : Nat) : Int) := by omega
    rw [e2, ih]; rfl

end Wicked
