import Verif.Spec.Antisym
import Verif.Model.Examples
import Verif.Props.Program
import Mathlib.GroupTheory.Perm.Fin
import Mathlib.Data.Fintype.Perm
/-! # Antisymmetrisation: lemmas (C81) -/
namespace Wicked
open Equiv

section
variable {Ω S A : Type} [Inhabited Ω] [DecidableEq Ω]

theorem permuted_length {n : Nat} (σ : Perm (Fin n)) (s : List Ω) : (permuted σ s).length = n := by simp [permuted]

theorem permuted_mul {n : Nat} (σ τ : Perm (Fin n)) (s : List Ω) : permuted (σ * τ) s = permuted τ (permuted σ s) := by
  apply List.ext_getElem
  · simp [permuted]
  intro i h1 h2
  simp [permuted]

theorem permuted_one {n : Nat} {s : List Ω} (h : s.length = n) : permuted (1 : Perm (Fin n)) s = s := by
  apply List.ext_getElem
  · simp [permuted, h]
  intro i h1 h2
  simp [permuted, List.getElem?_eq_getElem h2]

/-- a function of lists that changes sign when two neighbours are exchanged -/
def Alternates [AddGroup A] (F : List Ω → A) : Prop := ∀ xs a b ys, F (xs ++ a :: b :: ys) = - F (xs ++ b :: a :: ys)

omit [DecidableEq Ω] in
theorem split_two {n : Nat} {s : List Ω} (h : s.length = n + 1) (i : Fin n) :
    ∃ xs a b ys, xs.length = (i : Nat) ∧ s = xs ++ a :: b :: ys ∧ permuted (swap i.castSucc i.succ) s = xs ++ b :: a :: ys := by
  have hi : (i : Nat) + 1 < s.length := by have := i.2; omega
  have e : s = s.take i ++ s[(i : Nat)] :: s[(i : Nat) + 1] :: s.drop (i + 2) := by
    conv_lhs => rw [← List.take_append_drop i s, List.drop_eq_getElem_cons (by omega), List.drop_eq_getElem_cons (by omega)]
  refine ⟨_, _, _, _, by rw [List.length_take]; omega, e, ?_⟩
  apply List.ext_getElem
  · simp [permuted]; omega
  intro k h1 h2
  simp only [permuted, List.getElem_ofFn]
  have hk : k < n + 1 := by simpa [permuted] using h1
  by_cases hki : k = i
  · subst hki
    have : swap i.castSucc i.succ ⟨(i : Nat), hk⟩ = i.succ := swap_apply_left _ _
    rw [this]
    simp [Nat.min_eq_left (show (i : Nat) ≤ s.length by omega), List.getD_eq_getElem?_getD, List.getElem?_eq_getElem hi]
  by_cases hki' : k = i + 1
  · subst hki'
    have : swap i.castSucc i.succ ⟨(i : Nat) + 1, hk⟩ = i.castSucc := swap_apply_right _ _
    rw [this]
    simp [Nat.min_eq_left (show (i : Nat) ≤ s.length by omega), List.getD_eq_getElem?_getD, List.getElem?_eq_getElem (show (i : Nat) < s.length by omega)]
  · have : swap i.castSucc i.succ ⟨k, hk⟩ = ⟨k, hk⟩ := by
      apply swap_apply_of_ne_of_ne
      · intro h'; exact hki (by simpa using congrArg Fin.val h')
      · intro h'; exact hki' (by simpa using congrArg Fin.val h')
    rw [this]
    simp only [List.getD_eq_getElem?_getD, List.getElem?_eq_getElem (show k < s.length by omega), Option.getD_some]
    rw [List.getElem_append]
    split
    · simp
    · next hh =>
      rw [List.length_take, Nat.min_eq_left (by omega)] at hh
      obtain ⟨m, rfl⟩ : ∃ m, k = i + 2 + m := ⟨k - (i + 2), by omega⟩
      simp only [List.length_take, Nat.min_eq_left (show (i : Nat) ≤ s.length by omega), show (i : Nat) + 2 + m - i = m + 2 by omega, List.getElem_cons_succ,
        List.getElem_drop]

theorem alternates_permuted [AddCommGroup A] {F : List Ω → A} (hF : Alternates F) {n : Nat} (σ : Perm (Fin n)) :
    ∀ (a s b : List Ω), s.length = n → F (a ++ permuted σ s ++ b) = (Perm.sign σ : Int) • F (a ++ s ++ b) := by
  cases n with
  | zero =>
    intro a s b h
    have : σ = 1 := Subsingleton.elim _ _
    subst this
    rw [permuted_one h]; simp
  | succ n =>
    have hm : σ ∈ Submonoid.closure (Set.range fun i : Fin n ↦ swap i.castSucc i.succ) := by
      rw [Perm.mclosure_swap_castSucc_succ]; trivial
    induction hm using Submonoid.closure_induction with
    | mem x hx =>
      obtain ⟨i, rfl⟩ := hx
      intro a s b h
      obtain ⟨xs, p, q, ys, -, e1, e2⟩ := split_two h i
      rw [e2, Perm.sign_swap (by intro h'; have := congrArg Fin.val h'; simp at this), e1]
      have := hF (a ++ xs) q p (ys ++ b)
      simp only [List.append_assoc, List.cons_append] at this ⊢
      rw [this]
      simp
    | one => intro a s b h; rw [permuted_one h]; simp
    | mul x y _ _ hx hy =>
      intro a s b h
      rw [permuted_mul, hy _ _ _ (permuted_length _ _), hx _ _ _ h, smul_smul, Perm.sign_mul]
      congr 1
      push_cast
      ring

theorem sumTuples_replicate [AddCommMonoid A] (d : Finset Ω) : ∀ (n : Nat) (F : List Ω → A),
    sumTuples (List.replicate n d) F = ∑ f ∈ Fintype.piFinset (fun _ : Fin n => d), F (List.ofFn f)
  | 0, F => by simp [sumTuples]
  | n + 1, F => by
    simp only [List.replicate_succ, sumTuples]
    simp only [sumTuples_replicate d n]
    rw [← Finset.sum_product']
    refine Finset.sum_nbij' (i := fun p => Fin.cons p.1 p.2) (j := fun f => (f 0, Fin.tail f)) ?_ ?_ ?_ ?_ ?_
    · rintro ⟨a, f⟩ h
      rw [Finset.mem_product, Fintype.mem_piFinset] at h
      rw [Fintype.mem_piFinset]
      intro k
      refine Fin.cases ?_ ?_ k
      · exact h.1
      · intro j; exact h.2 j
    · intro f h
      rw [Fintype.mem_piFinset] at h
      rw [Finset.mem_product, Fintype.mem_piFinset]
      exact ⟨h 0, fun k => h _⟩
    · rintro ⟨a, f⟩ _; simp
    · intro f _; simp
    · rintro ⟨a, f⟩ _; simp [List.ofFn_succ]

omit [DecidableEq Ω] in
theorem permuted_ofFn {n : Nat} (σ : Perm (Fin n)) (f : Fin n → Ω) : permuted σ (List.ofFn f) = List.ofFn (fun k => f (σ k)) := by
  simp [permuted]

/-- a sum over all tuples does not change when the entries are rearranged -/
theorem sumTuples_permuted [AddCommMonoid A] (d : Finset Ω) {n : Nat} (σ : Perm (Fin n)) (F : List Ω → A) :
    sumTuples (List.replicate n d) (fun s => F (permuted σ s)) = sumTuples (List.replicate n d) F := by
  rw [sumTuples_replicate, sumTuples_replicate]
  simp only [permuted_ofFn]
  refine Finset.sum_nbij' (i := fun f k => f (σ k)) (j := fun f k => f (σ⁻¹ k)) ?_ ?_ ?_ ?_ ?_
  · intro f h; rw [Fintype.mem_piFinset] at h ⊢; exact fun k => h _
  · intro f h; rw [Fintype.mem_piFinset] at h ⊢; exact fun k => h _
  · intro f _; funext k; simp
  · intro f _; funext k; simp
  · intro f _; rfl

theorem sumTuples_finset_sum [AddCommMonoid A] {ι : Type} (I : Finset ι) (ds : List (Finset Ω)) (F : ι → List Ω → A) :
    sumTuples ds (fun l => ∑ i ∈ I, F i l) = ∑ i ∈ I, sumTuples ds (F i) := by
  induction ds generalizing F with
  | nil => rfl
  | cons d ds ih =>
    simp only [sumTuples, ih]
    rw [Finset.sum_comm]

/-- the sum of an antisymmetrised array with an alternating function is `n!` times the sum of the array -/
theorem sumTuples_antisymmetrizer [CommRing S] [AddCommGroup A] [Module S A] (a b : List (Finset Ω)) (d : Finset Ω) (n : Nat) (X : List Ω → S) {F : List Ω → A}
    (hF : Alternates F) :
    sumTuples (a ++ List.replicate n d ++ b) (fun s => antisymmetrizer a.length n X s • F s) =
      (n.factorial : ℕ) • sumTuples (a ++ List.replicate n d ++ b) (fun s => X s • F s) := by
  have h1 : ∀ (σ : Perm (Fin n)),
      sumTuples (a ++ List.replicate n d ++ b) (fun s => (((Perm.sign σ : Int) : S) * X (s.take a.length ++ permuted σ ((s.drop a.length).take n) ++ s.drop (a.length + n))) • F s)
        = sumTuples (a ++ List.replicate n d ++ b) (fun s => X s • F s) := by
    intro σ
    rw [List.append_assoc, sumTuples_append, sumTuples_append]
    apply sumTuples_congr
    intro u hu
    rw [sumTuples_append, sumTuples_append, ← sumTuples_permuted d σ (fun s => sumTuples b (fun l => X (u ++ (s ++ l)) • F (u ++ (s ++ l))))]
    apply sumTuples_congr
    intro s hs
    rw [List.length_replicate] at hs
    apply sumTuples_congr
    intro l _
    rw [List.take_left' hu, List.drop_left' hu, List.take_left' hs, ← List.drop_drop, List.drop_left' hu, List.drop_left' hs]
    have := alternates_permuted hF σ u s l hs
    simp only [List.append_assoc] at this ⊢
    rw [this, mul_comm, mul_smul, ← Int.cast_smul_eq_zsmul S]
  have h2 : (fun s => antisymmetrizer a.length n X s • F s) = fun s => ∑ σ : Perm (Fin n),
      (((Perm.sign σ : Int) : S) * X (s.take a.length ++ permuted σ ((s.drop a.length).take n) ++ s.drop (a.length + n))) • F s := by
    funext s
    rw [antisymmetrizer, Finset.sum_smul]
  rw [h2, sumTuples_finset_sum, Finset.sum_congr rfl (fun σ _ => h1 σ), Finset.sum_const, Finset.card_univ, Fintype.card_perm, Fintype.card_fin]
end
end Wicked
