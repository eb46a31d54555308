import Verif.Proofs.ClusterExpansion
/-! # The amplitudes are determined by the state -/
namespace Wicked
namespace Wick
open Equiv

theorem alternates_repeat {Ω R : Type} [Inhabited Ω] [CommRing R] [Algebra ℚ R] {F : List Ω → R} (hF : Alternates F) {l : List Ω} (h : ¬ l.Nodup) : F l = 0 := by
  classical
  rw [List.nodup_iff_injective_get, Function.Injective] at h
  push Not at h
  obtain ⟨i, j, hij, hne⟩ := h
  have hp : permuted (swap i j) l = l := by
    unfold permuted
    conv_rhs => rw [← List.ofFn_getElem (xs := l)]
    refine congrArg List.ofFn (funext (fun k => ?_))
    have hg : ∀ k : Fin l.length, l.getD k default = l.get k := fun k => by
      simp [List.getD_eq_getElem?_getD]
    rw [hg]
    show _ = l.get k
    rcases eq_or_ne k i with rfl | h1
    · rw [swap_apply_left]; exact hij.symm
    · rcases eq_or_ne k j with rfl | h2
      · rw [swap_apply_right]; exact hij
      · rw [swap_apply_of_ne_of_ne h1 h2]
  have h1 := alternates_permuted hF (swap i j) [] l [] rfl
  rw [hp, Perm.sign_swap hne] at h1
  simp only [List.nil_append, List.append_nil, Units.val_neg, Units.val_one, neg_smul, one_smul] at h1
  have h2 : (2 : ℚ) • F l = 0 := by
    rw [two_smul]
    nth_rw 1 [h1]
    exact neg_add_cancel _
  have h3 : F l = ((1 : ℚ) / 2) • ((2 : ℚ) • F l) := by rw [smul_smul]; norm_num
  rw [h3, h2, smul_zero]

section
variable {Ω : Type} [Inhabited Ω] [Fintype Ω] [LinearOrder Ω] {R : Type} [CommRing R] [Algebra ℚ R]

theorem clusterOp_congr' {hole : Ω → Bool} {t t' : List Ω → List Ω → R} {n : Nat}
    (h : ∀ l u : List Ω, 1 ≤ l.length → l.length ≤ n → l.length = u.length → (∀ x ∈ u, hole x = true) → (∀ x ∈ l, hole x = false) → t l u = t' l u) : clusterOp hole t n = clusterOp hole t' n := by
  unfold clusterOp
  refine congrArg List.sum (List.map_congr_left (fun k hk => ?_))
  have := List.mem_range.1 hk
  unfold manyBody
  refine congrArg (fun x => ((1 : ℚ) / ((k + 1).factorial * (k + 1).factorial)) • x) (Finset.sum_congr rfl (fun p hp => Finset.sum_congr rfl (fun q hq => ?_)))
  rw [h _ _ (by rw [List.length_ofFn]; omega) (by rw [List.length_ofFn]; omega) (by rw [List.length_ofFn, List.length_ofFn])]
  · intro x hx
    obtain ⟨i, rfl⟩ := List.mem_ofFn.1 hx
    exact (Finset.mem_filter.1 (Fintype.mem_piFinset.1 hq i)).2
  · intro x hx
    obtain ⟨i, rfl⟩ := List.mem_ofFn.1 hx
    exact (Finset.mem_filter.1 (Fintype.mem_piFinset.1 hp i)).2

theorem clusterOp_succ (hole : Ω → Bool) (t : List Ω → List Ω → R) (n : Nat) : clusterOp hole t (n + 1) = clusterOp hole t n +
    manyBody t (normalProd hole (fockOp R hole)) (n + 1) (Finset.univ.filter (fun x => hole x = false)) (Finset.univ.filter (fun x => hole x = true)) := by
  unfold clusterOp
  rw [List.range_succ, List.map_append, List.sum_append, List.map_singleton, List.sum_singleton]

theorem cluster_unique_upto {hole : Ω → Bool} {t t' : List Ω → List Ω → R} (h1 : ∀ u, Alternates (fun l => t l u)) (h2 : ∀ l, Alternates (t l)) (h1' : ∀ u, Alternates (fun l => t' l u)) (h2' : ∀ l, Alternates (t' l)) : ∀ n : Nat,
    (∀ S : Finset Ω, S.card ≤ 2 * n → IsNilpotent.exp (clusterOp hole t n) (fockVacuum R) S = IsNilpotent.exp (clusterOp hole t' n) (fockVacuum R) S) →
    ∀ l u : List Ω, 1 ≤ l.length → l.length ≤ n → l.length = u.length → (∀ x ∈ u, hole x = true) → (∀ x ∈ l, hole x = false) → t l u = t' l u
  | 0, _, l, u, hl1, hl0, _, _, _ => by omega
  | n + 1, hS, l, u, hl1, hln, hlu, hu, hl => by
    have hX : ∀ t : List Ω → List Ω → R, manyBody t (normalProd hole (fockOp R hole)) (n + 1) (Finset.univ.filter (fun x => hole x = false)) (Finset.univ.filter (fun x => hole x = true)) ∈ wordSpan R (fockOp R hole) (goodModes hole) (2 * (n + 1)) :=
      fun t => manyBody_wordSpan t (n + 1)
    have hstep : ∀ (t : List Ω → List Ω → R) (S : Finset Ω), S.card ≤ 2 * (n + 1) → IsNilpotent.exp (clusterOp hole t (n + 1)) (fockVacuum R) S = IsNilpotent.exp (clusterOp hole t n) (fockVacuum R) S +
        manyBody t (normalProd hole (fockOp R hole)) (n + 1) (Finset.univ.filter (fun x => hole x = false)) (Finset.univ.filter (fun x => hole x = true)) (fockVacuum R) S := by
      intro t S hS
      rw [clusterOp_succ, exp_step (by omega) (clusterOp_mem hole t n) (hX t) (creators_of_wordSpan goodModes_good (hX t)) hS]
    have ih := cluster_unique_upto h1 h2 h1' h2' n (fun S hc => by
      have := hS S (by omega)
      rwa [hstep t S (by omega), hstep t' S (by omega), wordSpan_coeff goodModes_good (hX t) (by omega), wordSpan_coeff goodModes_good (hX t') (by omega), add_zero, add_zero] at this)
    rcases Nat.lt_or_ge l.length (n + 1) with hlt | hge
    · exact ih l u hl1 (by omega) hlu hu hl
    by_cases hnl : l.Nodup
    swap
    · rw [alternates_repeat (h1 u) hnl, alternates_repeat (h1' u) hnl]
    by_cases hnu : u.Nodup
    swap
    · rw [alternates_repeat (h2 l) hnu, alternates_repeat (h2' l) hnu]
    have hco : clusterOp hole t n = clusterOp hole t' n := clusterOp_congr' ih
    obtain ⟨ε, _, hbra⟩ := expectation_bra (R := R) hu hl hnu hnl
    have ha := amplitude_element (R := R) (fock_car hole) (fock_expectation hole) (V := Finset.univ.filter (fun x => hole x = false)) (O := Finset.univ.filter (fun x => hole x = true)) (by simp) (by simp) h1 h2 hu hl hlu
    have ha' := amplitude_element (R := R) (fock_car hole) (fock_expectation hole) (V := Finset.univ.filter (fun x => hole x = false)) (O := Finset.univ.filter (fun x => hole x = true)) (by simp) (by simp) h1' h2' hu hl hlu
    have hun : u.length = n + 1 := by omega
    rw [hun, hbra] at ha ha'
    have hcard : (u.toFinset ∪ l.toFinset).card ≤ 2 * (n + 1) := by
      refine (Finset.card_union_le _ _).trans ?_
      have e1 := List.toFinset_card_le u
      have e2 := List.toFinset_card_le l
      omega
    have := hS _ hcard
    rw [hstep t _ hcard, hstep t' _ hcard, hco] at this
    rw [← ha, ← ha', add_left_cancel this]
end
end Wick
end Wicked
