import Verif.Props.Program
import Mathlib.Data.Nat.Choose.Sum
import Mathlib.Algebra.Order.Antidiag.Pi
import Mathlib.Algebra.BigOperators.NatAntidiagonal
/-! Sums of symmetric functions over tuples from a disjoint union of sets -/
namespace Wicked
open Finset

section
variable {Ω A : Type} [Inhabited Ω] [DecidableEq Ω] [AddCommGroup A] [Module ℚ A]

set_option linter.unusedSectionVars false

/-- the value does not depend on the order -/
def PermInv {Ω A : Type} (F : List Ω → A) : Prop := ∀ l l', l.Perm l' → F l = F l'

theorem PermInv.cons {F : List Ω → A} (h : PermInv F) (x : Ω) : PermInv (fun l => F (x :: l)) :=
  fun _ _ hp => h _ _ (hp.cons x)

theorem PermInv.append {F : List Ω → A} (h : PermInv F) (u : List Ω) : PermInv (fun l => F (u ++ l)) :=
  fun _ _ hp => h _ _ (hp.append_left u)

theorem sumTuples_sum {τ : Type} (s : Finset τ) (ds : List (Finset Ω)) (F : τ → List Ω → A) :
    sumTuples ds (fun l => ∑ t ∈ s, F t l) = ∑ t ∈ s, sumTuples ds (F t) := by
  induction ds generalizing F with
  | nil => rfl
  | cons d ds ih =>
    simp only [sumTuples, ih]
    rw [Finset.sum_comm]

theorem sumTuples_union {D E : Finset Ω} (hd : Disjoint D E) : ∀ (n : Nat) (F : List Ω → A), PermInv F →
    sumTuples (List.replicate n (D ∪ E)) F =
      ∑ p ∈ antidiagonal n, n.choose p.1 • sumTuples (List.replicate p.1 D ++ List.replicate p.2 E) F := by
  intro n
  induction n with
  | zero => intro F _; simp
  | succ n ih =>
    intro F hF
    rw [List.replicate_succ, sumTuples, Finset.sum_union hd, Finset.sum_antidiagonal_choose_succ_nsmul
      (fun i j => sumTuples (List.replicate i D ++ List.replicate j E) F) n, add_comm]
    congr 1
    · simp only [fun x => ih _ (hF.cons x)]
      rw [Finset.sum_comm]
      apply Finset.sum_congr rfl
      intro p hp
      rw [← Finset.smul_sum]
      congr 1
      simp only [sumTuples_append, ← sumTuples_sum]
      apply sumTuples_congr
      intro u _
      rw [sumTuples_sum, List.replicate_succ, sumTuples]
      apply Finset.sum_congr rfl
      intro x _
      apply sumTuples_congr
      intro l _
      exact hF _ _ (List.perm_middle.symm)
    · simp only [fun x => ih _ (hF.cons x)]
      rw [Finset.sum_comm]
      apply Finset.sum_congr rfl
      intro p hp
      rw [← Finset.smul_sum, Nat.choose_symm_of_eq_add (by have := mem_antidiagonal.1 hp; omega : n = p.1 + p.2)]
      rfl

theorem sumTuples_union' {D E : Finset Ω} (hd : Disjoint D E) (n : Nat) {F : List Ω → A} (hF : PermInv F) :
    (1 / n.factorial : ℚ) • sumTuples (List.replicate n (D ∪ E)) F =
      ∑ p ∈ antidiagonal n, (1 / p.1.factorial * (1 / p.2.factorial) : ℚ) • sumTuples (List.replicate p.1 D ++ List.replicate p.2 E) F := by
  rw [sumTuples_union hd n F hF, Finset.smul_sum]
  apply Finset.sum_congr rfl
  intro p hp
  have hp := mem_antidiagonal.1 hp
  rw [← Nat.cast_smul_eq_nsmul ℚ, smul_smul]
  congr 1
  have h := Nat.choose_mul_factorial_mul_factorial (show p.1 ≤ n by omega)
  rw [show n - p.1 = p.2 by omega] at h
  have h1 : ((p.1.factorial : Nat) : ℚ) ≠ 0 := by exact_mod_cast p.1.factorial_ne_zero
  have h2 : ((p.2.factorial : Nat) : ℚ) ≠ 0 := by exact_mod_cast p.2.factorial_ne_zero
  have h3 : ((n.factorial : Nat) : ℚ) ≠ 0 := by exact_mod_cast n.factorial_ne_zero
  have h' : (n.choose p.1 : ℚ) * p.1.factorial * p.2.factorial = n.factorial := by exact_mod_cast h
  field_simp
  linarith

/-- the multinomial theorem for symmetric functions of tuples -/
theorem sumTuples_biUnion (d : Nat → Finset Ω) (L : List Nat) (hL : L.Nodup) (hd : ∀ s ∈ L, ∀ s' ∈ L, s ≠ s' → Disjoint (d s) (d s')) :
    ∀ (n : Nat) (F : List Ω → A), PermInv F →
    (1 / n.factorial : ℚ) • sumTuples (List.replicate n (L.toFinset.biUnion d)) F =
      ∑ k ∈ piAntidiag L.toFinset n, (L.map (fun s => (1 / (k s).factorial : ℚ))).prod •
        sumTuples (L.flatMap (fun s => List.replicate (k s) (d s))) F := by
  induction L with
  | nil =>
    intro n F _
    rcases n with _ | n
    · simp [sumTuples]
    · simp [List.replicate_succ, sumTuples]
  | cons s L ih =>
    intro n F hF
    rw [List.nodup_cons] at hL
    have hsL : s ∉ L.toFinset := by simpa using hL.1
    rw [List.toFinset_cons, Finset.biUnion_insert]
    have hdis : Disjoint (d s) (L.toFinset.biUnion d) := by
      rw [Finset.disjoint_biUnion_right]
      intro t ht
      have ht' : t ∈ L := by simpa using ht
      exact hd s (by simp) t (by simp [ht']) (fun h => hL.1 (h ▸ ht'))
    rw [sumTuples_union' hdis n hF]
    have ih' := ih hL.2 (fun a ha b hb => hd a (by simp [ha]) b (by simp [hb]))
    rw [← Finset.cons_eq_insert s _ hsL, piAntidiag_cons, Finset.sum_disjiUnion]
    apply Finset.sum_congr rfl
    intro p _
    rw [Finset.sum_map, mul_smul, sumTuples_append, ← sumTuples_smul]
    simp only [fun u => ih' p.2 _ (hF.append u)]
    rw [sumTuples_sum, Finset.smul_sum]
    apply Finset.sum_congr rfl
    intro k hk
    have hks : k s = 0 := by
      by_contra h
      exact hsL ((mem_piAntidiag.1 hk).2 s h)
    have hne : ∀ t ∈ L, (k + fun t => if t = s then p.1 else 0) t = k t := by
      intro t ht
      have : t ≠ s := fun h => hL.1 (h ▸ ht)
      simp [this]
    rw [sumTuples_smul, smul_smul]
    have e1 : addRightEmbedding (fun t => if t = s then p.1 else 0) k = k + fun t => if t = s then p.1 else 0 := rfl
    rw [e1, List.map_cons, List.prod_cons, List.flatMap_cons, sumTuples_append]
    congr 1
    · congr 1
      · simp [hks]
      · congr 1
        apply List.map_congr_left
        intro t ht
        rw [hne t ht]
    · rw [show (k + fun t => if t = s then p.1 else 0) s = p.1 by simp [hks]]
      rw [show L.flatMap (fun t => List.replicate ((k + fun t => if t = s then p.1 else 0) t) (d t)) = L.flatMap (fun t => List.replicate (k t) (d t))
        from List.flatMap_congr (fun t ht => by rw [hne t ht])]
end
end Wicked
