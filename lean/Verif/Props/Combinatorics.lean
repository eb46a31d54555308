import Verif.Proofs.Combinatorics
import Verif.Proofs.PermSign
import Verif.Proofs.Partitions
/-! # Properties C07-C09: combinatorics -/
namespace Wicked

/-- C07: `factorial(n) = n!`, and 1 for negative `n`. -/
theorem C07_factorial (n : Nat) : factorial n = (n.factorial : Int) := factorial_nat n
/-- C07: negative arguments. -/
theorem C07_factorial_neg (n : Int) (h : n < 0) : factorial n = 1 := factorial_neg (by omega)
/-- C07: `binomial(n,k) = C(n,k)` for all natural `n`, `k`. -/
theorem C07_binomial (n k : Nat) : binomial n k = (n.choose k : Int) := binomial_nat n k
/-- C07: every division inside the loop of `binomial` is exact: after the steps `2..i` the running
value is `C(n,i)`, and the next numerator is divisible by the next divisor. -/
theorem C07_binomial_division_exact (n i : Nat) (hi : 1 ≤ i) (hin : i < n) :
    ((i : Int) + 1) ∣ binomialLoop n i * (n - ((i : Int) + 1) + 1) := by
  rw [binomialLoop_nat n i hi (by omega)]
  refine ⟨n.choose (i + 1), ?_⟩
  have h := Nat.choose_succ_right_eq n i
  have h2 : (n - ((i : Int) + 1) + 1) = ((n - i : Nat) : Int) := by omega
  rw [h2, mul_comm ((i : Int) + 1)]
  exact_mod_cast h.symm
/-- C07: with 64-bit integers `factorial` is exact up to 20 and overflows from 21 on. -/
theorem C07_factorial_64bit (n : Nat) :
    (n ≤ 20 → factorialM n = .ok (n.factorial : Int)) ∧ (21 ≤ n → factorialM n = .error .ub) := by
  refine ⟨fun h => factorialM_ok n ?_, factorialM_overflow n⟩
  exact le_trans (by exact_mod_cast Nat.factorial_le h) (by decide : ((20 : Nat).factorial : Int) ≤ 9223372036854775807)

/-- the 64-bit loop of `binomial`: the largest product is the last one -/
theorem binomialM_loop (n k : Nat) (hk : 2 * (k + 1) ≤ n) :
    (intRange 2 ((k + 1 : Nat) : Int)).foldlM (fun r i => do let t ← chk64 (r * ((n : Int) - i + 1)); return t.tdiv i) (n : Int) =
      if k = 0 ∨ n.choose (k + 1) * (k + 1) ≤ 9223372036854775807 then (.ok (n.choose (k + 1) : Int) : Res Int) else .error .ub := by
  induction k with
  | zero => simp [intRange_empty]; rfl
  | succ k ih =>
    have ih := ih (by omega)
    have e : ((k + 1 + 1 : Nat) : Int) = 2 + (k : Int) := by omega
    have e2 : (2 + (k : Int) - 1) = ((k + 1 : Nat) : Int) := by omega
    rw [e, intRange_succ, List.foldlM_append, e2, ih]
    have hch := Nat.choose_succ_right_eq n (k + 1)
    have e3 : ((n.choose (k + 1) : Int) * (n - (2 + (k : Int)) + 1)) = ((n.choose (k + 2) * (k + 2) : Nat) : Int) := by
      have h2 : (n - (2 + (k : Int)) + 1) = ((n - (k + 1) : Nat) : Int) := by omega
      rw [h2]
      exact_mod_cast hch.symm
    have hmono : n.choose (k + 1) * (k + 1) ≤ n.choose (k + 2) * (k + 2) := by
      rw [show n.choose (k + 2) * (k + 2) = n.choose (k + 1) * (n - (k + 1)) from hch]
      exact Nat.mul_le_mul_left _ (by omega)
    by_cases hfit : n.choose (k + 2) * (k + 2) ≤ 9223372036854775807
    · rw [if_pos (Or.inr (by omega)), if_pos (Or.inr hfit)]
      simp only [bind, Except.bind, List.foldlM_cons, List.foldlM_nil]
      rw [e3]
      unfold chk64
      rw [if_pos ⟨by omega, by exact_mod_cast hfit⟩]
      simp only [pure, Except.pure]
      congr 1
      push_cast
      rw [show ((k : Int) + 2) = 2 + (k : Int) by omega, Int.mul_tdiv_cancel _ (by omega)]
    · rw [if_neg (c := k + 1 = 0 ∨ _) (by rintro (h | h); · omega
                                          · exact hfit h)]
      by_cases hc : k = 0 ∨ n.choose (k + 1) * (k + 1) ≤ 9223372036854775807
      · rw [if_pos hc]
        simp only [bind, Except.bind, List.foldlM_cons, List.foldlM_nil]
        rw [e3]
        unfold chk64
        rw [if_neg (by rintro ⟨_, h⟩; exact hfit (by exact_mod_cast h))]
      · rw [if_neg hc]; rfl

/-- C07: with 64-bit integers `binomial(n, k)` is exact whenever `C(n, j) * j` fits, where `j` is the smaller of `k` and `n - k`, and overflows
otherwise (for `j ≤ 1` nothing is multiplied). -/
theorem C07_binomial_64bit (n k : Nat) :
    binomialM n k = if min k (n - k) ≤ 1 ∨ n.choose (min k (n - k)) * min k (n - k) ≤ 9223372036854775807
      then .ok (n.choose k : Int) else .error .ub := by
  unfold binomialM
  by_cases h : k > n
  · have : (k : Int) > n := by omega
    rw [if_pos this, Nat.choose_eq_zero_of_lt h, if_pos (Or.inl (by omega))]; rfl
  · rw [if_neg (by omega)]
    simp only
    have e : (if (k : Int) * 2 > n then (n : Int) - k else k) = ((min k (n - k) : Nat) : Int) := by
      split <;> omega
    rw [e]
    have hsym : n.choose k = n.choose (min k (n - k)) := by
      rcases Nat.le_total k (n - k) with hh | hh
      · rw [Nat.min_eq_left hh]
      · rw [Nat.min_eq_right hh, Nat.choose_symm (by omega)]
    rw [hsym]
    generalize hj : min k (n - k) = j
    cases j with
    | zero => simp
    | succ j =>
      rw [if_neg (by simp; omega), binomialM_loop n j (by omega)]
      congr 1
      simp

-- `binomial` is exact up to n = 61 for all k, and overflows at (62, 28) although C(62, 28) itself fits into 64 bits
example : binomialM 61 30 = .ok 232714176627630544 ∧ binomialM 62 31 = .error .ub ∧ binomialM 62 28 = .error .ub ∧ binomialM 1000 2 = .ok 499500 := by
  decide +kernel

example : binomial 10 7 = 120 ∧ binomial 4 9 = 0 ∧ factorial 5 = 120 := by decide

/-- C08: `permutation_sign` of the images of a permutation of `{0..n-1}` is its sign. -/
theorem C08_permutation_sign {n : ℕ} (σ : Equiv.Perm (Fin n)) :
    permutationSign (List.ofFn fun i => ((σ i : ℕ) : Int)) = (Equiv.Perm.sign σ : ℤ) :=
  permutationSign_perm σ

/-- C08: exchanging two entries of a list of distinct integers flips the sign. -/
theorem C08_exchange_flips (pre : List Int) (a : Int) (mid : List Int) (b : Int) (post : List Int)
    (h : (pre ++ a :: (mid ++ b :: post)).Nodup) :
    permutationSign (pre ++ b :: (mid ++ a :: post)) =
      - permutationSign (pre ++ a :: (mid ++ b :: post)) := by
  rw [List.nodup_append] at h
  have h2 := h.2.1
  rw [List.nodup_cons, List.nodup_append] at h2
  have ha : a ∉ mid := fun hm => h2.1 (by simp [hm])
  have hab : a ≠ b := fun e => h2.1 (by simp [e])
  have hb : b ∉ mid := fun hm => h2.2.2.2 b hm b (by simp) rfl
  rw [permutationSign_exchange pre a mid b post ha hb hab, neg_neg]

example : (([0, 3, 1, 2] : List Int)).Nodup ∧ permutationSign [0, 3, 1, 2] = 1 ∧
    permutationSign [0, 2, 1, 3] = -1 := by decide

/-- C09: for `n ≥ 2` the call succeeds (no out-of-bounds access, no divergence) and returns exactly
the partitions of `n` of length at most `maxlen`, each once, in increasing lexicographic order. -/
theorem C09_integer_partitions (n maxlen : Int) (hn : 2 ≤ n) :
    ∃ L : List (List Int), integerPartitions n maxlen = .ok L ∧ L.Pairwise (· < ·) ∧ L.Nodup ∧
      ∀ p, p ∈ L ↔ IsPartition n p ∧ (p.length : Int) ≤ maxlen := by
  obtain ⟨L, h1, h2, h3⟩ := integerPartitions_spec n maxlen (by omega)
  refine ⟨_, h3, h1.filter _, ?_, ?_⟩
  · exact (h1.filter _).imp (fun h => ne_of_lt h)
  · intro p; rw [List.mem_filter, h2]; simp

/-- C09: the small cases.  `n = 0` gives the empty partition, `n = 1` gives `[1]` whatever
`maxlen` is (for both, `maxlen` is ignored), and negative `n` gives nothing. -/
theorem C09_small_cases (n maxlen : Int) (hn : n < 2) :
    integerPartitions n maxlen = .ok (if n = 0 then [[]] else if n = 1 then [[1]] else []) := by
  unfold integerPartitions
  rw [if_neg (by omega)]
  by_cases h0 : n = 0
  · subst h0; rfl
  · by_cases h1 : n = 1
    · subst h1; rfl
    · simp [h0, h1, pure, Except.pure]

example : IsPartition 4 [2, 1, 1] := ⟨by decide, by decide, by decide⟩
example : integerPartitions 4 2 = .ok [[2, 2], [3, 1], [4]] := by decide

end Wicked
