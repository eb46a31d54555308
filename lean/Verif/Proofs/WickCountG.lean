import Verif.Proofs.WickCount
/-! The combinatorial factor does not depend on the representative of the graph -/
namespace Wicked
open CppLt CppEq Rational
namespace Wick
open scoped Classical

theorem row_inj {n : Nat} {p : List Int} (hp : IsPermOf n p) {e e' : EContr} (he : e.length = n) (he' : e'.length = n)
    (h : p.map (fun i => gmAt e i.toNat) = p.map (fun i => gmAt e' i.toNat)) : e = e' := by
  rw [list_eq_map_gmAt e, list_eq_map_gmAt e', he, he']
  apply List.map_congr_left
  intro A hA
  obtain ⟨j, hj, ej⟩ := pAt_surj hp (List.mem_range.1 hA)
  rw [← ej, ← gmAt_row hp e hj, ← gmAt_row hp e' hj, h]

theorem elegs_graphOps {ops : OperatorProduct} {p c : List Int} (hp : IsPermOf ops.length p) {k : Nat × Nat × Bool} (hk : k.1 < ops.length) :
    elegs ((graphOps ops (p, c)).map Operator.gm) k = elegs (ops.map Operator.gm) (pcls p k) := by
  unfold elegs pcls
  simp only
  rw [gmAt_ops _ _ (by rw [length_graphOps hp]; exact hk), gmAt_ops _ _ (pAt_lt hp hk), opAt_graphOps hp hk]

theorem combFactor_graph {o : OSI} (h8 : o.spaces.length ≤ 8) {ops : OperatorProduct} (hv : ∀ p ∈ ops, p.Valid o.spaces.length) {cs : CContr}
    (h : EvalList o ops cs) {p c : List Int} (hp : IsPermOf ops.length p) (hc : IsPermOf cs.length c) :
    toRat (combFactor o.spaces.length (graphOps ops (p, c)) (graphContr cs (p, c))) = toRat (combFactor o.spaces.length ops cs) := by
  have h' := evalList_graph h hp hc
  have e1 := combFactor_eq hv (fun e he => evaluable_good (h.ev e he)) (avail_legs h)
  have e2 := combFactor_eq (valid_graphOps hv hp) (fun e he => evaluable_good (h'.ev e he)) (avail_legs h')
  have hperm := graphContr_perm (p := p) hc
  have hP : ∏ e ∈ (graphContr cs (p, c)).toFinset, ((graphContr cs (p, c)).count e : ℚ) = ∏ e ∈ cs.toFinset, (cs.count e : ℚ) := by
    rw [List.toFinset_eq_of_perm _ _ hperm]
    have := prod_count_inj (fun e : EContr => p.map (fun i => gmAt e i.toNat)) cs (fun a ha b hb hab => row_inj hp (evaluable_len (h.ev a ha)) (evaluable_len (h.ev b hb)) hab) (fun m => (m : ℚ))
    refine Eq.trans ?_ (this.trans (by convert rfl))
    refine Finset.prod_congr ?_ ?_
    · ext x; simp
    · intro x _
      rw [Multiset.coe_count, hperm.count_eq]
      congr!
  have hM : Count.multinom (kinds o.spaces.length (graphOps ops (p, c)).length) (elegs ((graphOps ops (p, c)).map Operator.gm)) ((graphContr cs (p, c)).map elegs : List _) =
      Count.multinom (kinds o.spaces.length ops.length) (elegs (ops.map Operator.gm)) (cs.map elegs : List _) := by
    unfold Count.multinom
    rw [length_graphOps hp]
    refine Finset.prod_bij (fun k _ => pcls p k) ?_ ?_ ?_ ?_
    · intro k hk
      unfold kinds at hk ⊢
      simp only [Finset.mem_product, Finset.mem_range, Finset.mem_univ, and_true] at hk ⊢
      exact ⟨pAt_lt hp hk.1, hk.2⟩
    · intro k hk k' hk' he
      unfold kinds at hk hk'
      simp only [Finset.mem_product, Finset.mem_range, Finset.mem_univ, and_true] at hk hk'
      unfold pcls at he
      simp only [Prod.mk.injEq] at he
      exact Prod.ext (pAt_inj hp hk.1 hk'.1 he.1) (Prod.ext he.2.1 he.2.2)
    · intro k hk
      unfold kinds at hk
      simp only [Finset.mem_product, Finset.mem_range, Finset.mem_univ, and_true] at hk
      obtain ⟨j, hj, ej⟩ := pAt_surj hp hk.1
      refine ⟨(j, k.2), ?_, ?_⟩
      · unfold kinds
        simp only [Finset.mem_product, Finset.mem_range, Finset.mem_univ, and_true]
        exact ⟨hj, hk.2⟩
      · exact Prod.ext ej rfl
    · intro k hk
      unfold kinds at hk
      simp only [Finset.mem_product, Finset.mem_range, Finset.mem_univ, and_true] at hk
      have hrow : ∀ {β : Type} (g : ℕ → β), (Multiset.map (fun f : Nat × Nat × Bool → ℕ => g (f k)) ((graphContr cs (p, c)).map elegs : List _)) =
          Multiset.map (fun f : Nat × Nat × Bool → ℕ => g (f (pcls p k))) (cs.map elegs : List _) := by
        intro β g
        rw [Multiset.map_coe, Multiset.map_coe, List.map_map, List.map_map, Multiset.coe_eq_coe]
        refine (hperm.map _).trans (List.Perm.of_eq ?_)
        rw [List.map_map]
        apply List.map_congr_left
        intro e he
        simp only [Function.comp_apply]
        rw [elegs_row hp (evaluable_len (h.ev e he)) hk.1]
      rw [elegs_graphOps hp hk.1, hrow (fun m => (m.factorial : ℚ)), hrow (fun m => m)]
  rw [hM, ← e1, hP] at e2
  have h5 : (∏ e ∈ cs.toFinset, (cs.count e : ℚ)) ≠ 0 := by
    rw [Finset.prod_ne_zero_iff]
    intro e he h
    have : 0 < cs.count e := List.count_pos_iff.2 (List.mem_toFinset.1 he)
    have : cs.count e = 0 := by exact_mod_cast h
    omega
  exact mul_right_cancel₀ h5 e2

end Wick
end Wicked
