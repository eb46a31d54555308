import Verif.Spec.Fock
import Verif.Model.Combinatorics
import Mathlib.GroupTheory.Perm.Fin
import Mathlib.Algebra.BigOperators.Fin
import Mathlib.Algebra.Module.Basic
/-! # Lemmas about `permutation_sign` -/
namespace Wicked

theorem permutationSign_eq_pow (v : List Int) : permutationSign v = (-1) ^ inversions v := by
  unfold permutationSign
  rcases Nat.even_or_odd (inversions v) with h | h
  · rw [h.neg_one_pow, Nat.even_iff.mp h]; rfl
  · rw [h.neg_one_pow, Nat.odd_iff.mp h]; rfl

/-- sign contribution of one entry against the later ones -/
def headSign (a : Int) (l : List Int) : Int := (-1) ^ (l.countP (fun b => decide (a > b)))

@[simp] theorem permutationSign_nil : permutationSign [] = 1 := rfl

theorem permutationSign_cons (a : Int) (l : List Int) :
    permutationSign (a :: l) = headSign a l * permutationSign l := by
  rw [permutationSign_eq_pow, permutationSign_eq_pow, headSign, inversions, pow_add]

theorem permutationSign_sq (v : List Int) : permutationSign v * permutationSign v = 1 := by
  rw [permutationSign_eq_pow, ← pow_add, ← two_mul, pow_mul]; simp

theorem permutationSign_cases (v : List Int) : permutationSign v = 1 ∨ permutationSign v = -1 := by
  unfold permutationSign; split <;> simp

theorem headSign_perm {a : Int} {l l' : List Int} (h : l.Perm l') : headSign a l = headSign a l' := by
  unfold headSign; rw [h.countP_eq]

theorem headSign_cons (a b : Int) (l : List Int) :
    headSign a (b :: l) = (if a > b then -1 else 1) * headSign a l := by
  unfold headSign
  rw [List.countP_cons]
  by_cases h : a > b <;> simp [h, pow_succ]

theorem permutationSign_swap (a b : Int) (l : List Int) (h : a ≠ b) :
    permutationSign (a :: b :: l) = - permutationSign (b :: a :: l) := by
  simp only [permutationSign_cons, headSign_cons]
  rcases lt_or_gt_of_ne h with h | h
  · have h1 : ¬ a > b := by omega
    have h2 : b > a := by omega
    simp [h1, h2]; ring
  · have h1 : a > b := by omega
    have h2 : ¬ b > a := by omega
    simp [h1, h2]; ring

/-- Reordering a list of (entry, tag) pairs with distinct tags: the sign of the tags compensates
the sign of an antisymmetric function of the entries. -/
theorem permSign_smul_perm {α M : Type*} [AddCommGroup M] {L L' : List (α × Int)} (h : L.Perm L') :
    (L.map Prod.snd).Nodup → ∀ (f : List α → M), AntisymmFun f →
    permutationSign (L.map Prod.snd) • f (L.map Prod.fst) =
      permutationSign (L'.map Prod.snd) • f (L'.map Prod.fst) := by
  induction h with
  | nil => intros; rfl
  | cons x p ih =>
    intro hn f hf
    simp only [List.map_cons, List.nodup_cons] at hn ⊢
    rw [permutationSign_cons, permutationSign_cons, mul_smul, mul_smul,
      headSign_perm (p.map Prod.snd)]
    congr 1
    exact ih hn.2 (fun l => f (x.1 :: l)) (fun pre a b post => hf (x.1 :: pre) a b post)
  | swap x y l =>
    intro hn f hf
    simp only [List.map_cons, List.nodup_cons, List.mem_cons, not_or] at hn ⊢
    rw [permutationSign_swap _ _ _ hn.1.1, neg_smul]
    have := hf [] y.1 x.1 (l.map Prod.fst)
    simp only [List.nil_append] at this
    rw [this, smul_neg, neg_neg]
  | trans p q ih1 ih2 =>
    intro hn f hf
    rw [ih1 hn f hf]
    exact ih2 ((p.map Prod.snd).nodup_iff.mp hn) f hf

theorem permutationSign_of_sorted {l : List Int} (h : l.Pairwise (· ≤ ·)) : permutationSign l = 1 := by
  induction l with
  | nil => rfl
  | cons a l ih =>
    rw [List.pairwise_cons] at h
    rw [permutationSign_cons, ih h.2, headSign]
    have : List.countP (fun b => decide (a > b)) l = 0 := by
      rw [List.countP_eq_zero]; intro b hb; have := h.1 b hb; simp; omega
    rw [this]; rfl

/-! ### The sign of a Mathlib permutation -/

theorem permutationSign_ofFn {n : ℕ} (f : Fin n → Int) :
    permutationSign (List.ofFn f) = ∏ i, ∏ j ∈ Finset.Ioi i, (if f i > f j then (-1 : Int) else 1) := by
  induction n with
  | zero => simp
  | succ n ih =>
    rw [List.ofFn_succ, permutationSign_cons, Fin.prod_univ_succ, ih, Fin.prod_Ioi_zero]
    congr 1
    · unfold headSign
      generalize f 0 = a
      generalize hg : (fun i : Fin n => f i.succ) = g
      have : ∀ i : Fin n, f i.succ = g i := fun i => by rw [← hg]
      simp only [this]
      clear this hg f ih
      induction n with
      | zero => simp
      | succ n ih =>
        rw [List.ofFn_succ, List.countP_cons, Fin.prod_univ_succ, ← ih (fun i => g i.succ), pow_add,
          mul_comm]
        congr 1
        by_cases h : a > g 0 <;> simp [h]
    · refine Finset.prod_congr rfl fun i _ => ?_
      rw [Fin.prod_Ioi_succ]

theorem permutationSign_perm {n : ℕ} (σ : Equiv.Perm (Fin n)) :
    permutationSign (List.ofFn fun i => ((σ i : ℕ) : Int)) = (Equiv.Perm.sign σ : ℤ) := by
  rw [permutationSign_ofFn, Equiv.Perm.sign_eq_prod_prod_Ioi]
  simp only [Units.coe_prod]
  refine Finset.prod_congr rfl fun i _ => Finset.prod_congr rfl fun j hj => ?_
  have hij : i < j := by simpa using hj
  have hne : (σ i : ℕ) ≠ (σ j : ℕ) := fun h => hij.ne (σ.injective (Fin.ext h))
  by_cases h : σ i < σ j
  · have : ¬ (((σ i : ℕ) : Int) > ((σ j : ℕ) : Int)) := by have := Fin.lt_def.mp h; omega
    simp [h]; omega
  · have : (((σ i : ℕ) : Int) > ((σ j : ℕ) : Int)) := by
      have := mt Fin.lt_def.mpr h; omega
    simp [h]; omega

/-! ### Exchanging entries -/

theorem permutationSign_append_swap (pre : List Int) (a b : Int) (l : List Int) (h : a ≠ b) :
    permutationSign (pre ++ a :: b :: l) = - permutationSign (pre ++ b :: a :: l) := by
  induction pre with
  | nil => exact permutationSign_swap a b l h
  | cons c pre ih =>
    rw [List.cons_append, List.cons_append, permutationSign_cons, permutationSign_cons, ih,
      headSign_perm ((List.Perm.swap b a l).append_left pre), mul_neg]

/-- moving an entry to the right past `mid` -/
theorem permutationSign_move (pre : List Int) (a : Int) (mid post : List Int) (h : a ∉ mid) :
    permutationSign (pre ++ a :: (mid ++ post)) =
      (-1) ^ mid.length * permutationSign (pre ++ (mid ++ a :: post)) := by
  induction mid generalizing pre with
  | nil => simp
  | cons b mid ih =>
    simp only [List.mem_cons, not_or] at h
    rw [List.cons_append, permutationSign_append_swap _ _ _ _ h.1]
    have := ih (pre ++ [b]) h.2
    simp only [List.append_assoc, List.singleton_append] at this
    rw [this, List.length_cons, pow_succ, List.cons_append]
    ring

theorem permutationSign_exchange (pre : List Int) (a : Int) (mid : List Int) (b : Int) (post : List Int)
    (ha : a ∉ mid) (hb : b ∉ mid) (hab : a ≠ b) :
    permutationSign (pre ++ a :: (mid ++ b :: post)) =
      - permutationSign (pre ++ b :: (mid ++ a :: post)) := by
  have h1 := permutationSign_move pre a (mid ++ [b]) post (by simp [ha, hab])
  have h2 := permutationSign_move pre b mid (a :: post) hb
  simp only [List.append_assoc, List.singleton_append, List.length_append, List.length_singleton] at h1
  rw [h1, h2, pow_succ]
  ring

end Wicked
