import Verif.Proofs.LinkMask
/-! The contractions with a given set of isolated operators -/
namespace Wicked
open CppLt CppEq Rational
namespace Wick

theorem graphContr_iota (cs : CContr) (p : List Int) : graphContr cs (p, iota cs.length) = cs.map (row p) := by
  unfold graphContr iota
  simp only [List.map_map]
  apply List.ext_getElem
  · simp
  · intro i h1 h2
    simp at h1
    simp [h1, row]

theorem row_row {n : Nat} {p q : List Int} (hp : IsPermOf n p) (hq : IsPermOf n q) (h : pcomp p q = iota n) {e : EContr} (he : e.length = n) :
    row q (row p e) = e := by
  have h1 : row q (row p e) = (pcomp p q).map (fun i => gmAt e i.toNat) := by
    unfold pcomp
    rw [List.map_map]
    unfold row
    apply List.map_congr_left
    intro k hk
    have hk := (mem_perm hq).1 hk
    rw [gmAt_row hp e (by omega)]
    rfl
  rw [h1, h, iota, List.map_map]
  have := list_eq_map_gmAt e
  rw [he] at this
  exact this.symm

theorem toList_perm (μ : Multiset EContr) (f : EContr → EContr) : (Multiset.map f μ).toList.Perm (μ.toList.map f) := by
  rw [← Multiset.coe_eq_coe, Multiset.coe_toList, ← Multiset.map_coe, Multiset.coe_toList]

theorem exchanged_inv {n : Nat} {p : List Int} (hp : IsPermOf n p) {a b : Int} (h : Exchanged (pquot p (iota n)) a b) :
    Exchanged p (p.getD b.toNat 0) (p.getD a.toNat 0) ∧ 0 ≤ a ∧ a < n ∧ 0 ≤ b ∧ b < n := by
  obtain ⟨h1, h2⟩ := h
  unfold pquot at h1
  obtain ⟨l, hl, e⟩ := List.sublist_map_iff.1 h1
  match l, e with
  | [i, j], e =>
    simp only [List.map_cons, List.map_nil, List.cons.injEq, and_true] at e
    obtain ⟨rfl, rfl⟩ := e
    have hij : i < j := List.pairwise_iff_forall_sublist.1 (iota_sorted n) hl
    have hi : i ∈ p := hp.mem_iff.2 (hl.subset (by simp))
    have hj : j ∈ p := hp.mem_iff.2 (hl.subset (by simp))
    have li := List.idxOf_lt_length_of_mem hi
    have lj := List.idxOf_lt_length_of_mem hj
    rw [len_perm hp] at li lj
    simp only [Int.toNat_natCast]
    rw [getD_idxOf hi, getD_idxOf hj]
    refine ⟨⟨?_, hij⟩, by omega, by omega, by omega, by omega⟩
    rw [sublist_pair_iff (nodup_perm hp) hj hi]
    omega

theorem isPermOf_iota' (n : Nat) : IsPermOf n (iota n) := List.Perm.refl _

section
variable (o : OSI) (cfg : WickCfg) (τ : Operator → Bool) (minr maxr : Int) (t : STerm)

open Classical in
/-- the contractions of `u v` in which the operators of `u` are isolated, and those of `v` are not -/
noncomputable def phi (u v : OperatorProduct) : ℚ :=
  ∑ μ ∈ (compM o cfg (u ++ v) minr maxr).filter (fun μ => mask τ o.spaces.length (u ++ v) μ.toList =
      List.replicate u.length true ++ List.replicate v.length false), contrib o cfg t (u ++ v) μ.toList
end

theorem not_joined_of_mask {τ : Operator → Bool} {ns : Nat} {ops : OperatorProduct} {cs : CContr} {i j : Nat}
    (hi : i < ops.length) (hj : j < ops.length) (h1 : (mask τ ns ops cs).getD i false = true) (h2 : (mask τ ns ops cs).getD j false = false) :
    ¬ Joined ns cs i j := by
  intro h
  have := (mask_getD hj).2 (isolated_joined h ((mask_getD hi).1 h1))
  rw [h2] at this; cases this

theorem joined_of_pair {ns : Nat} {cs : CContr} {i j : Nat} (h : PairJoined ns cs i j) : Joined ns cs i j := by
  obtain ⟨e, he, _, h1, h2⟩ := h; exact ⟨e, he, h1, h2⟩

section
variable {o : OSI} {cfg : WickCfg} (h8 : o.spaces.length ≤ 8) (hcg : cfg.canonGraph = true) {τ : Operator → Bool} {minr maxr : Int}
include h8 hcg

open Classical in
theorem split_sum {ops : OperatorProduct} (hv : ∀ p ∈ ops, p.Valid o.spaces.length) (hev : AllEven ops) (t : STerm) (m : List Bool)
    (hm : m.length = ops.length) :
    ∑ μ ∈ (compM o cfg ops minr maxr).filter (fun μ => mask τ o.spaces.length ops μ.toList = m), contrib o cfg t ops μ.toList =
      phi o cfg τ minr maxr t (sel true m ops) (sel false m ops) := by
  have hP : IsPermOf ops.length (selPerm m) := by rw [← hm]; exact selPerm_perm m
  have hQ : IsPermOf ops.length (pquot (selPerm m) (iota ops.length)) := isPermOf_pquot hP (isPermOf_iota' _)
  have hPQ : pcomp (selPerm m) (pquot (selPerm m) (iota ops.length)) = iota ops.length := pcomp_pquot hP (isPermOf_iota' _)
  have hops' : ∀ c, graphOps ops (selPerm m, c) = sel true m ops ++ sel false m ops := fun c => graphOps_selPerm m ops c hm
  have hlen' : (sel true m ops ++ sel false m ops).length = ops.length := by rw [← hops' []]; exact length_graphOps hP
  have hv' : ∀ p ∈ sel true m ops ++ sel false m ops, p.Valid o.spaces.length := by rw [← hops' []]; exact valid_graphOps hv hP
  have hev' : AllEven (sel true m ops ++ sel false m ops) := by rw [← hops' []]; exact allEven_graph hP hev
  have hback : ∀ c, graphOps (sel true m ops ++ sel false m ops) (pquot (selPerm m) (iota ops.length), c) = ops := by
    intro c
    rw [← hops' [], graphOps_comp hP hQ, hPQ, graphOps_id]
  have hmask' : List.replicate (sel true m ops).length true ++ List.replicate (sel false m ops).length false =
      (selPerm m).map (fun i => m.getD i.toNat false) := by
    rw [selPerm_mask, sel_length true m ops m hm.symm, sel_length false m ops m hm.symm]
  -- forward
  have fwd : ∀ μ : Multiset EContr, IsComp o cfg.maxCumulant ops minr maxr μ.toList → mask τ o.spaces.length ops μ.toList = m →
      Admissible o.spaces.length ops μ.toList (selPerm m, iota μ.toList.length) := by
    intro μ hc hmk
    refine ⟨hP, isPermOf_iota' _, ?_⟩
    intro a b hx hj
    obtain ⟨x1, x2⟩ := exchanged_selPerm hx
    have hmem : a ∈ selPerm m ∧ b ∈ selPerm m := ⟨hx.1.subset (by simp), hx.1.subset (by simp)⟩
    have ha := (mem_perm hP).1 hmem.1
    have hb := (mem_perm hP).1 hmem.2
    refine not_joined_of_mask (τ := τ) (ops := ops) (i := a.toNat) (j := b.toNat) (by omega) (by omega) (by rw [hmk]; exact x1) ?_ (joined_of_pair hj)
    rw [hmk]
    have hbl : b.toNat < m.length := by omega
    rw [List.getD_eq_getElem?_getD, List.getElem?_eq_getElem hbl] at x2 ⊢
    exact x2
  have bwd : ∀ ν : Multiset EContr, IsComp o cfg.maxCumulant (sel true m ops ++ sel false m ops) minr maxr ν.toList →
      mask τ o.spaces.length (sel true m ops ++ sel false m ops) ν.toList = (selPerm m).map (fun i => m.getD i.toNat false) →
      Admissible o.spaces.length (sel true m ops ++ sel false m ops) ν.toList (pquot (selPerm m) (iota ops.length), iota ν.toList.length) := by
    intro ν hc hmk
    refine ⟨by rw [hlen']; exact hQ, isPermOf_iota' _, ?_⟩
    intro a b hx hj
    obtain ⟨hx', ha0, ha, hb0, hb⟩ := exchanged_inv hP hx
    obtain ⟨x1, x2⟩ := exchanged_selPerm hx'
    have hget : ∀ k : Int, 0 ≤ k → k < ops.length → ((selPerm m).map (fun i => m.getD i.toNat false)).getD k.toNat false =
        m.getD ((selPerm m).getD k.toNat 0).toNat false := by
      intro k hk0 hk
      have hl := len_perm hP
      rw [List.getD_eq_getElem?_getD, List.getElem?_map, List.getD_eq_getElem?_getD (l := selPerm m), List.getElem?_eq_getElem (by omega)]
      rfl
    have gA := getD_perm hP ha0 ha
    have gB := getD_perm hP hb0 hb
    have lA := (mem_perm hP).1 gA.1
    refine not_joined_of_mask (τ := τ) (ops := sel true m ops ++ sel false m ops) (i := b.toNat) (j := a.toNat) (by omega) (by omega) ?_ ?_ (joined_of_pair hj).symm
    · rw [hmk, hget b hb0 hb]; exact x1
    · rw [hmk, hget a ha0 ha]
      have hal : ((selPerm m).getD a.toNat 0).toNat < m.length := by omega
      rw [List.getD_eq_getElem?_getD, List.getElem?_eq_getElem hal] at x2 ⊢
      exact x2
  unfold phi
  refine Finset.sum_bij' (fun μ _ => Multiset.map (row (selPerm m)) μ)
    (fun ν _ => Multiset.map (row (pquot (selPerm m) (iota ops.length))) ν) ?_ ?_ ?_ ?_ ?_
  · intro μ hμ
    obtain ⟨h1, h2⟩ := Finset.mem_filter.1 hμ
    rw [mem_compM h8 hv] at h1
    have hA := fwd μ h1 h2
    have hc := h1.graph hA
    rw [graphContr_iota, hops'] at hc
    refine Finset.mem_filter.2 ⟨(mem_compM h8 hv' _ _ _).2 (hc.perm (toList_perm μ _).symm), ?_⟩
    have := mask_row (τ := τ) (ns := o.spaces.length) (c := []) (fun e he => evaluable_len (h1.evalList.ev e he)) hP
    rw [hops', h2, ← hmask'] at this
    rw [← this]
    exact mask_perm (fun e => (toList_perm μ _).mem_iff)
  · intro ν hν
    obtain ⟨h1, h2⟩ := Finset.mem_filter.1 hν
    rw [mem_compM h8 hv'] at h1
    rw [hmask'] at h2
    have hA := bwd ν h1 h2
    have hc := h1.graph hA
    rw [graphContr_iota, hback] at hc
    refine Finset.mem_filter.2 ⟨(mem_compM h8 hv _ _ _).2 (hc.perm (toList_perm ν _).symm), ?_⟩
    have := mask_row (τ := τ) (ns := o.spaces.length) (c := []) (fun e he => evaluable_len (h1.evalList.ev e he)) hA.ops
    rw [hback, h2] at this
    rw [mask_perm (cs' := ν.toList.map (row (pquot (selPerm m) (iota ops.length)))) (fun e => (toList_perm ν _).mem_iff), this]
    have e1 : (pquot (selPerm m) (iota ops.length)).map (fun i => ((selPerm m).map (fun i => m.getD i.toNat false)).getD i.toNat false) =
        (pcomp (selPerm m) (pquot (selPerm m) (iota ops.length))).map (fun i => m.getD i.toNat false) := by
      rw [show pcomp (selPerm m) (pquot (selPerm m) (iota ops.length)) =
        (pquot (selPerm m) (iota ops.length)).map (fun k => (selPerm m).getD k.toNat 0) from rfl, List.map_map]
      apply List.map_congr_left
      intro k hk
      have hk := (mem_perm hQ).1 hk
      have hl := len_perm hP
      simp only [Function.comp_apply]
      rw [List.getD_eq_getElem?_getD, List.getElem?_map, List.getD_eq_getElem?_getD (l := selPerm m), List.getElem?_eq_getElem (by omega)]
      rfl
    rw [e1, hPQ, ← hm]
    unfold iota
    rw [List.map_map]
    apply List.ext_getElem
    · simp
    · intro i h1 h2; simp [h2]
  · intro μ hμ
    obtain ⟨h1, h2⟩ := Finset.mem_filter.1 hμ
    rw [mem_compM h8 hv] at h1
    simp only [Multiset.map_map]
    conv_rhs => rw [← Multiset.map_id μ]
    apply Multiset.map_congr rfl
    intro e he
    exact row_row hP hQ hPQ (evaluable_len (h1.evalList.ev e (Multiset.mem_toList.2 he)))
  · intro ν hν
    obtain ⟨h1, h2⟩ := Finset.mem_filter.1 hν
    rw [mem_compM h8 hv'] at h1
    simp only [Multiset.map_map]
    conv_rhs => rw [← Multiset.map_id ν]
    apply Multiset.map_congr rfl
    intro e he
    have hl := evaluable_len (h1.evalList.ev e (Multiset.mem_toList.2 he))
    rw [hlen'] at hl
    -- the other composition
    have hQP : pcomp (pquot (selPerm m) (iota ops.length)) (selPerm m) = iota ops.length := by
      unfold pcomp pquot
      have hl := len_perm hP
      apply List.ext_getElem
      · simp [iota, hl]
      · intro i h1 h2
        have hi : i < (selPerm m).length := by simpa using h1
        rw [List.getElem_map]
        have hmem := (mem_perm hP).1 (List.getElem_mem hi)
        rw [List.getD_eq_getElem?_getD, List.getElem?_map]
        simp only [iota]
        rw [List.getElem?_map, List.getElem?_range (by omega)]
        simp only [Option.map_some, Option.getD_some, List.getElem_map, List.getElem_range]
        rw [show (((selPerm m)[i].toNat : Nat) : Int) = (selPerm m)[i] by omega, (nodup_perm hP).idxOf_getElem i hi]
    exact row_row hQ hP hQP hl
  · intro μ hμ
    obtain ⟨h1, h2⟩ := Finset.mem_filter.1 hμ
    rw [mem_compM h8 hv] at h1
    have hA := fwd μ h1 h2
    have e1 := contrib_graph h8 hcg hv hev h1.el hA t
    have hc := h1.graph hA
    rw [graphContr_iota, hops'] at e1 hc
    rw [← e1]
    exact (contrib_perm h8 hcg hv' hev' hc.el (toList_perm μ _).symm t).symm

end
end Wick
end Wicked
