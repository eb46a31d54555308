import Verif.Proofs.LinkAlg
import Verif.Spec.Linked
/-! How many operators of the other kind can be connected to the operators of `H` -/
namespace Wicked
open CppLt CppEq Rational
namespace Wick

theorem lsum_range (n : Nat) (f : Nat → Int) : ((List.range n).map f).sum = ∑ i ∈ Finset.range n, f i := rfl

theorem lsum_comm {α : Type _} (l : List α) (n : Nat) (f : α → Nat → Int) :
    (l.map (fun a => ∑ i ∈ Finset.range n, f a i)).sum = ∑ i ∈ Finset.range n, (l.map (fun a => f a i)).sum := by
  induction l with
  | nil => simp
  | cons a l ih => simp only [List.map_cons, List.sum_cons, ih, Finset.sum_add_distrib]

/-- the legs at one operator do not exceed its second-quantized operators -/
theorem legs_le {o : OSI} {ops : OperatorProduct} (h8 : o.spaces.length ≤ 8) (hv : ∀ p ∈ ops, p.Valid o.spaces.length) {cs : CContr}
    (ha : Avail o.spaces.length ops cs) {A : Nat} (hA : A < ops.length) :
    (cs.map (fun e => legsAt o.spaces.length e A)).sum ≤ (opAt ops A).numOps := by
  have e1 : (opAt ops A).numOps = ∑ s ∈ Finset.range o.spaces.length, ((opAt ops A).gm.cre s + (opAt ops A).gm.ann s) := by
    unfold Operator.numOps
    rw [numOps_range h8 (opAt ops A).gm, lsum_range]
    have hm : opAt ops A ∈ ops := by
      unfold opAt
      rw [List.getD_eq_getElem?_getD, List.getElem?_eq_getElem hA]; exact List.getElem_mem _
    intro t ht
    exact (hv _ hm t).2.2 ht
  rw [e1]
  have e2 : (cs.map (fun e => legsAt o.spaces.length e A)).sum =
      ∑ s ∈ Finset.range o.spaces.length, (takenCre cs A s + takenAnn cs A s) := by
    unfold legsAt
    simp only [lsum_range]
    rw [lsum_comm]
    apply Finset.sum_congr rfl
    intro s _
    unfold takenCre takenAnn
    rw [← List.sum_map_add]
  rw [e2]
  apply Finset.sum_le_sum
  intro s hs
  have := ha A hA s (Finset.mem_range.1 hs)
  omega

theorem legsAt_nonneg {o : OSI} {m : Int} {ops : OperatorProduct} {e : EContr} (he : IsElementary o m ops e) {A : Nat} (hA : A < ops.length) :
    0 ≤ legsAt o.spaces.length e A := by
  obtain ⟨s, c, a, k, hs, hL, hn, _⟩ := elementary_evaluable he
  rw [legsAt_legs hs hL hA]
  have := hn A hA
  omega

/-- an elementary contraction takes no more from the operators that are not contracted with each other than from the others -/
theorem pair_legs {o : OSI} {m : Int} {ops : OperatorProduct} (hp : OnlyPairs o) {τ : Operator → Bool}
    (hT : ∀ x ∈ ops, ∀ y ∈ ops, τ x = true → τ y = true → NeverContract o x y) {e : EContr} (he : IsElementary o m ops e) :
    ∑ A ∈ Finset.range ops.length, (if τ (opAt ops A) = true then legsAt o.spaces.length e A else 0) ≤
      ∑ A ∈ Finset.range ops.length, (if τ (opAt ops A) = true then 0 else legsAt o.spaces.length e A) := by
  have hmem : ∀ A < ops.length, opAt ops A ∈ ops := by
    intro A hA
    unfold opAt
    rw [List.getD_eq_getElem?_getD, List.getElem?_eq_getElem hA]; exact List.getElem_mem _
  have main : ∀ l r, l < ops.length → r < ops.length → ¬ (τ (opAt ops l) = true ∧ τ (opAt ops r) = true) →
      (∀ A < ops.length, legsAt o.spaces.length e A = (if A = l then 1 else 0) + (if A = r then 1 else 0)) →
      ∑ A ∈ Finset.range ops.length, (if τ (opAt ops A) = true then legsAt o.spaces.length e A else 0) ≤
        ∑ A ∈ Finset.range ops.length, (if τ (opAt ops A) = true then 0 else legsAt o.spaces.length e A) := by
    intro l r hl hr hn hleg
    have a1 : ∑ A ∈ Finset.range ops.length, (if τ (opAt ops A) = true then legsAt o.spaces.length e A else 0) =
        (if τ (opAt ops l) = true then 1 else 0) + (if τ (opAt ops r) = true then 1 else 0) := by
      rw [Finset.sum_congr rfl (g := fun A => (if A = l then (if τ (opAt ops l) = true then 1 else 0) else 0) + (if A = r then (if τ (opAt ops r) = true then (1 : Int) else 0) else 0))]
      · rw [Finset.sum_add_distrib, Finset.sum_ite_eq', Finset.sum_ite_eq', if_pos (Finset.mem_range.2 hl), if_pos (Finset.mem_range.2 hr)]
      · intro A hA
        rw [hleg A (Finset.mem_range.1 hA)]
        by_cases h1 : A = l <;> by_cases h2 : A = r <;> simp [*]
        all_goals (try subst h1) <;> (try subst h2) <;> split <;> simp_all
    have a2 : ∑ A ∈ Finset.range ops.length, (if τ (opAt ops A) = true then 0 else legsAt o.spaces.length e A) =
        (if τ (opAt ops l) = true then 0 else 1) + (if τ (opAt ops r) = true then 0 else 1) := by
      rw [Finset.sum_congr rfl (g := fun A => (if A = l then (if τ (opAt ops l) = true then 0 else 1) else 0) + (if A = r then (if τ (opAt ops r) = true then (0 : Int) else 1) else 0))]
      · rw [Finset.sum_add_distrib, Finset.sum_ite_eq', Finset.sum_ite_eq', if_pos (Finset.mem_range.2 hl), if_pos (Finset.mem_range.2 hr)]
      · intro A hA
        rw [hleg A (Finset.mem_range.1 hA)]
        by_cases h1 : A = l <;> by_cases h2 : A = r <;> simp [*]
        all_goals (try subst h1) <;> (try subst h2) <;> split <;> simp_all
    rw [a1, a2]
    by_cases h1 : τ (opAt ops l) = true <;> by_cases h2 : τ (opAt ops r) = true <;> simp_all
  obtain ⟨s, hs, h⟩ := he
  rcases h with ⟨_, l, r, hlr, hr, hc, ha, hL⟩ | ⟨_, l, r, hlr, hr, ha, hc, hL⟩ | ⟨hg, _⟩
  · refine main l r (by omega) hr ?_ (fun A hA => legsAt_legs hs hL hA)
    rintro ⟨h1, h2⟩
    have := (hT _ (hmem l (by omega)) _ (hmem r hr) h1 h2 s hs).1
    omega
  · refine main r l hr (by omega) ?_ (fun A hA => legsAt_legs hs hL hA)
    rintro ⟨h1, h2⟩
    have := (hT _ (hmem r hr) _ (hmem l (by omega)) h1 h2 s hs).1
    omega
  · rcases hp s hs with h | h <;> rw [h] at hg <;> cases hg

theorem sum_opAt (ops : OperatorProduct) (f : Operator → Int) : ∑ A ∈ Finset.range ops.length, f (opAt ops A) = (ops.map f).sum := by
  rw [← lsum_range]
  congr 1
  apply List.ext_getElem
  · simp
  · intro i h1 h2
    simp only [List.getElem_map, List.getElem_range]
    unfold opAt
    rw [List.getD_eq_getElem?_getD, List.getElem?_eq_getElem (by simpa using h1)]
    rfl

theorem countP_sum (τ : Operator → Bool) (ops : OperatorProduct) : (ops.countP τ : Int) = (ops.map (fun x => if τ x = true then (1 : Int) else 0)).sum := by
  induction ops with
  | nil => rfl
  | cons a l ih =>
    rw [List.countP_cons, List.map_cons, List.sum_cons, ← ih]
    split <;> simp [add_comm]

/-- if every operator is connected to an operator that is not of kind `τ`, there are at most as many operators of kind `τ` as there
are second-quantized operators in the others -/
theorem few_ops {o : OSI} {m : Int} {ops : OperatorProduct} {minr maxr : Int} {cs : CContr} (h8 : o.spaces.length ≤ 8)
    (hv : ∀ p ∈ ops, p.Valid o.spaces.length) (hp : OnlyPairs o) {τ : Operator → Bool}
    (hT : ∀ x ∈ ops, ∀ y ∈ ops, τ x = true → τ y = true → NeverContract o x y) (hc : IsComp o m ops minr maxr cs)
    (hI : ∀ i < ops.length, ¬ Isolated τ o.spaces.length ops cs i) :
    (ops.countP τ : Int) ≤ ((ops.filter (fun x => !τ x)).map Operator.numOps).sum := by
  have h1 : ∀ A ∈ Finset.range ops.length, (if τ (opAt ops A) = true then (1 : Int) else 0) ≤
      (cs.map (fun e => if τ (opAt ops A) = true then legsAt o.spaces.length e A else 0)).sum := by
    intro A hA
    have hA := Finset.mem_range.1 hA
    by_cases ht : τ (opAt ops A) = true
    · simp only [if_pos ht]
      have hn := hI A hA
      unfold Isolated at hn
      push Not at hn
      obtain ⟨j, hj, hjt⟩ := hn
      have : ∃ k, Joined o.spaces.length cs A k := by
        rcases Relation.ReflTransGen.cases_head hj with rfl | ⟨k, hk, _⟩
        · exact absurd ht hjt
        · exact ⟨k, hk⟩
      obtain ⟨k, e, he, hl, _⟩ := this
      have hnn : ∀ x ∈ cs.map (fun e => legsAt o.spaces.length e A), 0 ≤ x := by
        intro x hx
        obtain ⟨e', he', rfl⟩ := List.mem_map.1 hx
        exact legsAt_nonneg (hc.el e' he') hA
      have := List.single_le_sum hnn _ (List.mem_map_of_mem he)
      omega
    · simp only [if_neg ht]
      simp
  have h2 := Finset.sum_le_sum h1
  rw [sum_opAt ops (fun x => if τ x = true then (1 : Int) else 0), ← countP_sum, ← lsum_comm] at h2
  have h3 : (cs.map (fun e => ∑ A ∈ Finset.range ops.length, (if τ (opAt ops A) = true then legsAt o.spaces.length e A else 0))).sum ≤
      (cs.map (fun e => ∑ A ∈ Finset.range ops.length, (if τ (opAt ops A) = true then 0 else legsAt o.spaces.length e A))).sum :=
    List.sum_le_sum (fun e he => pair_legs hp hT (hc.el e he))
  rw [lsum_comm cs ops.length (fun e A => if τ (opAt ops A) = true then 0 else legsAt o.spaces.length e A)] at h3
  have h4 : ∑ A ∈ Finset.range ops.length, (cs.map (fun e => if τ (opAt ops A) = true then 0 else legsAt o.spaces.length e A)).sum ≤
      ∑ A ∈ Finset.range ops.length, (if τ (opAt ops A) = true then 0 else (opAt ops A).numOps) := by
    apply Finset.sum_le_sum
    intro A hA
    have hA := Finset.mem_range.1 hA
    by_cases ht : τ (opAt ops A) = true
    · simp [ht]
    · simp only [if_neg ht]
      exact legs_le h8 hv hc.avail hA
  rw [sum_opAt ops (fun x => if τ x = true then (0 : Int) else x.numOps)] at h4
  have h5 : (ops.map (fun x => if τ x = true then (0 : Int) else x.numOps)).sum = ((ops.filter (fun x => !τ x)).map Operator.numOps).sum := by
    clear h1 h2 h3 h4 hc hI hT hv
    induction ops with
    | nil => rfl
    | cons a l ih =>
      rw [List.map_cons, List.sum_cons, ih, List.filter_cons]
      cases τ a <;> simp
  omega

end Wick
end Wicked
