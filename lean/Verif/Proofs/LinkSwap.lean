import Verif.Proofs.LinkSplit
import Verif.Spec.OpProduct
/-! Rearranging operators that have no common contractible space does not change the contractions -/
namespace Wicked
open CppLt CppEq Rational
namespace Wick

theorem le_lsum_range {n : Nat} {c : Nat → Int} (h : ∀ A < n, 0 ≤ c A) {A B : Nat} (hA : A < n) (hB : B < n) (hAB : A ≠ B) :
    c A + c B ≤ ((List.range n).map c).sum := by
  have e : ((List.range n).map c).sum = ∑ i ∈ Finset.range n, c i := rfl
  rw [e, ← Finset.sum_pair hAB]
  apply Finset.sum_le_sum_of_subset_of_nonneg
  · intro i hi
    simp only [Finset.mem_insert, Finset.mem_singleton] at hi
    rcases hi with rfl | rfl <;> simpa
  · intro i hi _
    exact h i (Finset.mem_range.1 hi)

/-- operators joined by a pair contraction have a common contractible space -/
theorem pairJoined_shares {o : OSI} {m : Int} {ops : OperatorProduct} {cs : CContr} (hcs : ∀ e ∈ cs, IsElementary o m ops e) {A B : Nat}
    (hA : A < ops.length) (hB : B < ops.length) (hAB : A ≠ B) (h : PairJoined o.spaces.length cs A B) :
    SharesContractible o.spaces.length (opAt ops A) (opAt ops B) := by
  obtain ⟨e, he, h2, h3, h4⟩ := h
  obtain ⟨s, hs, h⟩ := hcs e he
  rcases h with ⟨_, l, r, hlr, hr, hc, ha, hL⟩ | ⟨_, l, r, hlr, hr, ha, hc, hL⟩ | ⟨_, c, a, k, hk, _, hb, hcs, has, _, hL⟩
  · rw [legsAt_legs hs hL hA] at h3
    rw [legsAt_legs hs hL hB] at h4
    refine ⟨s, hs, ?_⟩
    have : (A = l ∧ B = r) ∨ (A = r ∧ B = l) := by
      by_cases h1 : A = l <;> by_cases h2 : A = r <;> by_cases h5 : B = l <;> by_cases h6 : B = r <;> simp_all
    rcases this with ⟨rfl, rfl⟩ | ⟨rfl, rfl⟩
    · exact Or.inr ⟨by omega, by omega⟩
    · exact Or.inl ⟨by omega, by omega⟩
  · rw [legsAt_legs hs hL hA] at h3
    rw [legsAt_legs hs hL hB] at h4
    refine ⟨s, hs, ?_⟩
    have : (A = l ∧ B = r) ∨ (A = r ∧ B = l) := by
      by_cases h1 : A = l <;> by_cases h2 : A = r <;> by_cases h5 : B = l <;> by_cases h6 : B = r <;> simp_all
    rcases this with ⟨rfl, rfl⟩ | ⟨rfl, rfl⟩
    · exact Or.inl ⟨by omega, by omega⟩
    · exact Or.inr ⟨by omega, by omega⟩
  · have hsum : ((List.range e.length).map (legsAt o.spaces.length e)).sum = k + k := by
      rw [hL.1, ← hcs]
      nth_rewrite 2 [hcs]
      rw [← has, ← List.sum_map_add]
      congr 1
      apply List.map_congr_left
      intro A hA
      exact legsAt_legs hs hL (List.mem_range.1 hA)
    rw [legsAt_legs hs hL hA] at h3
    rw [legsAt_legs hs hL hB] at h4
    have l1 := le_lsum_range (fun A hA => (hb A hA).1) hA hB hAB
    have l2 := le_lsum_range (fun A hA => (hb A hA).2.2.1) hA hB hAB
    have b1 := hb A hA
    have b2 := hb B hB
    have hk1 : k = 1 := by omega
    refine ⟨s, hs, ?_⟩
    by_cases h5 : 0 < c A
    · right; constructor <;> omega
    · left; constructor <;> omega

section
variable {o : OSI} {cfg : WickCfg} (h8 : o.spaces.length ≤ 8) (hcg : cfg.canonGraph = true) {minr maxr : Int}
include h8 hcg

open Classical in
theorem rearranged_sum {ops : OperatorProduct} (hv : ∀ p ∈ ops, p.Valid o.spaces.length) (hev : AllEven ops) (t : STerm) {P : List Int}
    (hP : IsPermOf ops.length P)
    (hno : ∀ a b, Exchanged P a b → ¬ SharesContractible o.spaces.length (opAt ops a.toNat) (opAt ops b.toNat)) :
    ∑ μ ∈ compM o cfg ops minr maxr, contrib o cfg t ops μ.toList =
      ∑ ν ∈ compM o cfg (graphOps ops (P, [])) minr maxr, contrib o cfg t (graphOps ops (P, [])) ν.toList := by
  have hQ : IsPermOf ops.length (pquot P (iota ops.length)) := isPermOf_pquot hP (isPermOf_iota' _)
  have hPQ : pcomp P (pquot P (iota ops.length)) = iota ops.length := pcomp_pquot hP (isPermOf_iota' _)
  have hops' : ∀ c, graphOps ops (P, c) = graphOps ops (P, []) := fun c => rfl
  have hlen' : (graphOps ops (P, [])).length = ops.length := length_graphOps hP
  have hv' : ∀ p ∈ graphOps ops (P, []), p.Valid o.spaces.length := valid_graphOps hv hP
  have hev' : AllEven (graphOps ops (P, [])) := allEven_graph hP hev
  have hback : ∀ c, graphOps (graphOps ops (P, [])) (pquot P (iota ops.length), c) = ops := by
    intro c
    rw [graphOps_comp hP hQ, hPQ, graphOps_id]
  have fwd : ∀ μ : Multiset EContr, IsComp o cfg.maxCumulant ops minr maxr μ.toList →
      Admissible o.spaces.length ops μ.toList (P, iota μ.toList.length) := by
    intro μ hc
    refine ⟨hP, isPermOf_iota' _, ?_⟩
    intro a b hx hj
    have hmem : a ∈ P ∧ b ∈ P := ⟨hx.1.subset (by simp), hx.1.subset (by simp)⟩
    have ha := (mem_perm hP).1 hmem.1
    have hb := (mem_perm hP).1 hmem.2
    have := hx.2
    exact hno a b hx (pairJoined_shares hc.el (by omega) (by omega) (by omega) hj)
  have bwd : ∀ ν : Multiset EContr, IsComp o cfg.maxCumulant (graphOps ops (P, [])) minr maxr ν.toList →
      Admissible o.spaces.length (graphOps ops (P, [])) ν.toList (pquot P (iota ops.length), iota ν.toList.length) := by
    intro ν hc
    refine ⟨by rw [hlen']; exact hQ, isPermOf_iota' _, ?_⟩
    intro a b hx hj
    obtain ⟨hx', ha0, ha, hb0, hb⟩ := exchanged_inv hP hx
    have hab := hx.2
    have := pairJoined_shares hc.el (by omega) (by omega) (by omega) hj
    rw [opAt_graphOps hP (by omega), opAt_graphOps hP (by omega)] at this
    obtain ⟨s, hs, h⟩ := this
    exact hno _ _ hx' ⟨s, hs, h.symm.imp And.symm And.symm⟩
  refine Finset.sum_bij' (fun μ _ => Multiset.map (row P) μ)
    (fun ν _ => Multiset.map (row (pquot P (iota ops.length))) ν) ?_ ?_ ?_ ?_ ?_
  · intro μ h1
    rw [mem_compM h8 hv] at h1
    have hc := h1.graph (fwd μ h1)
    rw [graphContr_iota] at hc
    exact (mem_compM h8 hv' _ _ _).2 (hc.perm (toList_perm μ _).symm)
  · intro ν h1
    rw [mem_compM h8 hv'] at h1
    have hc := h1.graph (bwd ν h1)
    rw [graphContr_iota, hback] at hc
    exact (mem_compM h8 hv _ _ _).2 (hc.perm (toList_perm ν _).symm)
  · intro μ h1
    rw [mem_compM h8 hv] at h1
    simp only [Multiset.map_map]
    conv_rhs => rw [← Multiset.map_id μ]
    apply Multiset.map_congr rfl
    intro e he
    exact row_row hP hQ hPQ (evaluable_len (h1.evalList.ev e (Multiset.mem_toList.2 he)))
  · intro ν h1
    rw [mem_compM h8 hv'] at h1
    simp only [Multiset.map_map]
    conv_rhs => rw [← Multiset.map_id ν]
    apply Multiset.map_congr rfl
    intro e he
    have hl := evaluable_len (h1.evalList.ev e (Multiset.mem_toList.2 he))
    rw [hlen'] at hl
    have hQP : pcomp (pquot P (iota ops.length)) P = iota ops.length := by
      unfold pcomp pquot
      have hl := len_perm hP
      apply List.ext_getElem
      · simp [iota, hl]
      · intro i h1 h2
        have hi : i < P.length := by simpa using h1
        rw [List.getElem_map]
        have hmem := (mem_perm hP).1 (List.getElem_mem hi)
        rw [List.getD_eq_getElem?_getD, List.getElem?_map]
        simp only [iota]
        rw [List.getElem?_map, List.getElem?_range (by omega)]
        simp only [Option.map_some, Option.getD_some, List.getElem_map, List.getElem_range]
        rw [show ((P[i].toNat : Nat) : Int) = P[i] by omega, (nodup_perm hP).idxOf_getElem i hi]
    exact row_row hQ hP hQP hl
  · intro μ h1
    rw [mem_compM h8 hv] at h1
    have hA := fwd μ h1
    have e1 := contrib_graph h8 hcg hv hev h1.el hA t
    have hc := h1.graph hA
    rw [graphContr_iota] at e1 hc
    rw [← e1]
    exact (contrib_perm h8 hcg hv' hev' hc.el (toList_perm μ _).symm t).symm


omit h8 hcg in
theorem unitTerms_ok_iff (h8 : o.spaces.length ≤ 8) (hcg : cfg.canonGraph = true) {ops : OperatorProduct}
    (hv : ∀ p ∈ ops, p.Valid o.spaces.length) (hev : AllEven ops) :
    (∃ rs, unitTerms o cfg ops minr maxr = .ok rs) ↔
      (∀ a b cs, IsComp o cfg.maxCumulant ops a b cs → cs.length ≤ 100) ∧
      ∀ cs, IsComp o cfg.maxCumulant ops minr maxr cs → ∃ r, processOne o cfg ops cs (Rational.ofInt 1) = .ok r := by
  obtain ⟨el, h1, h2, h3⟩ := elementary_spec (cfg := cfg) hv h8
  have hsz := elementary_sizes h8 hv h1
  have hSh : Shallow o.spaces.length ops el ↔ ∀ a b cs, IsComp o cfg.maxCumulant ops a b cs → cs.length ≤ 100 := by
    constructor
    · intro h a b cs hc
      obtain ⟨cv, hcv, hp⟩ := composite_of_isComp h3 hc
      have := h a b cv hcv
      rw [← hp.length_eq]
      simpa [pickAt] using this
    · intro h a b cv hc
      have := h a b _ (isComp_of_composite h3 hc)
      simpa [pickAt] using this
  obtain ⟨hs1, hs2⟩ := composite_spec hv h8 hsz minr maxr
  rw [← hSh]
  unfold unitTerms
  rw [h1]
  simp only [bind, Except.bind]
  by_cases hS : Shallow o.spaces.length ops el
  swap
  · rw [hs2 hS]
    constructor
    · rintro ⟨rs, h⟩; cases h
    · exact fun h => absurd h.1 hS
  obtain ⟨L, hL1, hL2, hL3, hL4⟩ := hs1 hS
  rw [hL1]
  simp only
  have hfil : L.filter (inWindow el ops minr maxr) = L := by
    rw [List.filter_eq_self]
    intro cv hcv
    have hc := (hL4 cv).1 hcv
    exact (inWindow_iff hv h8 (fun e he => (hsz e he).1) hc.range minr maxr).2 hc.window
  rw [hfil]
  constructor
  · rintro ⟨rs, h⟩
    refine ⟨hS, fun cs hc => ?_⟩
    obtain ⟨cv, hcv, hp⟩ := composite_of_isComp h3 hc
    have hF := (mapM_ok_iff _ _ _).1 h
    obtain ⟨r, _, hr⟩ := forall₂_right hF.flip cv ((hL4 cv).2 hcv)
    have hr : processOne o cfg ops (pickAt el cv) (Rational.ofInt 1) = .ok r := hr
    refine ⟨r, ?_⟩
    rw [← hr]
    -- the order of the contractions does not matter
    have hc' := isComp_of_composite h3 hcv
    obtain ⟨c, hcp, e⟩ := perm_positions [] hp
    have hA : Admissible o.spaces.length ops (pickAt el cv) (iota ops.length, c) :=
      ⟨List.Perm.refl _, hcp, fun _ _ h => absurd h (not_exchanged_iota _)⟩
    have := processOne_graph h8 hcg hv hev hc'.el hA (Rational.ofInt 1)
    rw [graphOps_id] at this
    rw [← this]
    congr 1
    rw [e]
    unfold graphContr
    apply List.map_congr_left
    intro j hj
    have hj := (mem_perm hcp).1 hj
    have hm : (pickAt el cv).getD j.toNat [] ∈ pickAt el cv := by
      rw [List.getD_eq_getElem?_getD, List.getElem?_eq_getElem (by omega)]; exact List.getElem_mem _
    have hl : ((pickAt el cv).getD j.toNat []).length = ops.length := evaluable_len (elementary_evaluable (hc'.el _ hm))
    simp only [iota, List.map_map]
    have := list_eq_map_gmAt ((pickAt el cv).getD j.toNat [])
    rw [hl] at this
    exact this
  · rintro ⟨_, h⟩
    have : ∀ cv ∈ L, ∃ r, processOne o cfg ops (pick el cv) (Rational.ofInt 1) = .ok r :=
      fun cv hcv => h _ (isComp_of_composite h3 ((hL4 cv).1 hcv))
    clear hfil hL1 hL2 hL3 hL4
    induction L with
    | nil => exact ⟨[], rfl⟩
    | cons cv L ih =>
      obtain ⟨r, hr⟩ := this cv (by simp)
      obtain ⟨rs, hrs⟩ := ih (fun cv h => this cv (by simp [h]))
      refine ⟨r :: rs, ?_⟩
      rw [List.mapM_cons, hr]
      simp only [bind, Except.bind]
      rw [hrs]
      rfl

/-- contracting the rearranged product succeeds too -/
theorem rearranged_ok {ops : OperatorProduct} (hv : ∀ p ∈ ops, p.Valid o.spaces.length) (hev : AllEven ops) {P : List Int}
    (hP : IsPermOf ops.length P)
    (hno : ∀ a b, Exchanged P a b → ¬ SharesContractible o.spaces.length (opAt ops a.toNat) (opAt ops b.toNat))
    (h : ∃ rs, unitTerms o cfg ops minr maxr = .ok rs) : ∃ rs, unitTerms o cfg (graphOps ops (P, [])) minr maxr = .ok rs := by
  have hQ : IsPermOf ops.length (pquot P (iota ops.length)) := isPermOf_pquot hP (isPermOf_iota' _)
  have hPQ : pcomp P (pquot P (iota ops.length)) = iota ops.length := pcomp_pquot hP (isPermOf_iota' _)
  have hlen' : (graphOps ops (P, [])).length = ops.length := length_graphOps hP
  have hv' : ∀ p ∈ graphOps ops (P, []), p.Valid o.spaces.length := valid_graphOps hv hP
  have hev' : AllEven (graphOps ops (P, [])) := allEven_graph hP hev
  have hback : ∀ c, graphOps (graphOps ops (P, [])) (pquot P (iota ops.length), c) = ops := by
    intro c
    rw [graphOps_comp hP hQ, hPQ, graphOps_id]
  have bwd : ∀ a b cs, IsComp o cfg.maxCumulant (graphOps ops (P, [])) a b cs →
      Admissible o.spaces.length (graphOps ops (P, [])) cs (pquot P (iota ops.length), iota cs.length) := by
    intro a b cs hc
    refine ⟨by rw [hlen']; exact hQ, isPermOf_iota' _, ?_⟩
    intro a b hx hj
    obtain ⟨hx', ha0, ha, hb0, hb⟩ := exchanged_inv hP hx
    have hab := hx.2
    have := pairJoined_shares hc.el (by omega) (by omega) (by omega) hj
    rw [opAt_graphOps hP (by omega), opAt_graphOps hP (by omega)] at this
    obtain ⟨s, hs, h⟩ := this
    exact hno _ _ hx' ⟨s, hs, h.symm.imp And.symm And.symm⟩
  rw [unitTerms_ok_iff h8 hcg hv hev] at h
  rw [unitTerms_ok_iff h8 hcg hv' hev']
  refine ⟨?_, ?_⟩
  · intro a b cs hc
    have := hc.graph (bwd a b cs hc)
    rw [graphContr_iota, hback] at this
    have := h.1 a b _ this
    simpa using this
  · intro cs hc
    have h1 := hc.graph (bwd _ _ cs hc)
    have h2 := processOne_graph h8 hcg hv' hev' hc.el (bwd _ _ cs hc) (Rational.ofInt 1)
    rw [hback] at h1 h2
    rw [← h2]
    exact h.2 _ h1

end
end Wick
end Wicked
