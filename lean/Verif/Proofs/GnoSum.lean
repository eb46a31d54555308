import Verif.Proofs.GnoBlock
/-! The sum over all schemes is the product of the generalised normal products of the factors -/
namespace Wicked
namespace Gno
open Wick
section
variable {Ω R B : Type} [Inhabited Ω] [DecidableEq Ω] [CommRing R] [Ring B] [Algebra R B]
variable {v : OrbSystem Ω R B} {o : OSI} {m : Int} {ρ : Reference Ω R} {ops : OperatorProduct} {x : Slot → Ω}

theorem conOrder_part {L : List Slot} (hn : L.Nodup) (b : Finset Slot) : (conOrder L b).Perm (partOf L b) := by
  refine (conOrder_perm hn b).trans ?_
  rw [List.perm_ext_iff_of_nodup (nodup_blk hn b) (partOf_nodup hn b)]
  intro y
  rw [mem_blk, mem_partOf]

/-- one scheme -/
theorem scheme_conTerm (href : v.HasReference o m ρ) (hx : ∀ y ∈ slots o.spaces.length ops, x y ∈ v.dom y.space) {S : Finset (Finset Slot)}
    (hsub : ∀ b ∈ S, b ⊆ (slots o.spaces.length ops).toFinset) (hcon : ∀ b ∈ S, IsContraction o m b) {C : Type} [Ring C] [Algebra R C] (u : OrbSystem Ω R C) (hu : u.T = v.T)
    (N : List (SQType × Ω) → B) :
    (((orderSign (slots o.spaces.length ops) (S.toList.flatMap (conOrder (slots o.spaces.length ops)) ++ leftOver (slots o.spaces.length ops) S) : Int) : R) *
      ∏ b ∈ S, conVal u o (slots o.spaces.length ops) x b) • N ((leftOver (slots o.spaces.length ops) S).map (modeOf x)) =
    conTerm ρ.contraction N (modeOf x) (slots o.spaces.length ops) S := by
  have hv : ∀ b ∈ S, _ := fun b hb => contraction_value href hx (hsub b hb) (hcon b hb) u hu
  have hn := nodup_slots o.spaces.length ops
  generalize slots o.spaces.length ops = L at *
  unfold conTerm
  have hl : leftOver L S = restOf L S := rfl
  rw [hl]
  congr 1
  have e1 : ∏ b ∈ S, ρ.contraction ((partOf L b).map (modeOf x)) = (((∏ b ∈ S, sgR (posZ L) (conOrder L b) : Int)) : R) * ∏ b ∈ S, conVal u o L x b := by
    push_cast
    rw [← Finset.prod_mul_distrib]
    exact Finset.prod_congr rfl hv
  rw [e1, ← mul_assoc]
  congr 1
  rw [orderSign_eq, listSign_eq]
  have hp : posI L = posZ L := rfl
  rw [hp, sgR_flat, sgR_flat]
  have e2 : (S.toList.map (fun b => sgR (posZ L) (partOf L b))).prod = 1 := by
    rw [List.map_congr_left (f := fun b => sgR (posZ L) (partOf L b)) (g := fun _ => (1 : Int)) (fun b _ => partOf_sorted (posI_sorted hn) b)]
    simp
  have e3 : S.toList.map (fun b => crossSg (posZ L) (partOf L b) (restOf L S)) = S.toList.map (fun b => crossSg (posZ L) (conOrder L b) (restOf L S)) :=
    List.map_congr_left (fun b _ => (crossSg_perm _ (conOrder_part hn b) (List.Perm.refl _)).symm)
  have e4 : (fun b b' => crossSg (posZ L) (partOf L b) (partOf L b')) = fun b b' => crossSg (posZ L) (conOrder L b) (conOrder L b') := by
    funext b b'
    exact (crossSg_perm _ (conOrder_part hn b) (conOrder_part hn b')).symm
  rw [e2, e3, e4, Finset.prod_map_toList]
  push_cast
  ring

theorem segs_eq (ns : Nat) (ops : OperatorProduct) : ∀ k, segs ns k ops = (List.range ops.length).map (fun j => (slotsFrom ns k ops).filter (fun y => decide (y.op = k + j))) := by
  induction ops with
  | nil => intro k; rfl
  | cons p ops ih =>
    intro k
    rw [segs, List.length_cons, List.range_succ_eq_map, List.map_cons, List.map_map, ih (k + 1)]
    congr 1
    · rw [slotsFrom, List.filter_append, List.filter_eq_self.2, List.filter_eq_nil_iff.2, List.append_nil]
      · intro y hy
        have := slotsFrom_op hy
        simp; omega
      · intro y hy
        have := (mem_opSlots.1 hy).1
        simp [this]
    · apply List.map_congr_left
      intro j _
      simp only [Function.comp_apply]
      have hnil : (opSlots ns k p).filter (fun y => decide (y.op = k + j.succ)) = [] := by
        rw [List.filter_eq_nil_iff]
        intro y hy
        have := (mem_opSlots.1 hy).1
        simp; omega
      rw [slotsFrom, List.filter_append, hnil, List.nil_append]
      · apply List.filter_congr
        intro y _
        congr 1
        rw [Nat.succ_eq_add_one]
        apply propext
        omega

theorem segs_part (ns : Nat) (ops : OperatorProduct) :
    segs ns 0 ops = (List.range ops.length).map (fun j => partOf (slots ns ops) (seg Slot.op (slots ns ops).toFinset j)) := by
  rw [segs_eq]
  apply List.map_congr_left
  intro j _
  unfold partOf seg slots
  apply List.filter_congr
  intro y hy
  simp [hy]

/-- the schemes of the full window, as sets of blocks -/
theorem mem_schemes_full {minr maxr : Int} (hmin : minr ≤ 0) (hmax : ((slots o.spaces.length ops).length : Int) ≤ maxr) {S : Finset (Finset Slot)} :
    S ∈ schemes o m ops minr maxr ↔ S ∈ bsets (slots o.spaces.length ops).toFinset ∧ ∀ b ∈ S, IsContraction o m b := by
  have hn := nodup_slots o.spaces.length ops
  rw [mem_schemes, mem_bsets]
  constructor
  · rintro ⟨h1, h2, h3, _⟩
    refine ⟨⟨h1, ?_, h3⟩, h2⟩
    intro b hb
    obtain ⟨s, _, _, h⟩ := h2 b hb
    rcases h with ⟨_, c, a, rfl, _⟩ | ⟨_, a, c, rfl, _⟩ | ⟨_, _, _, _, y, hy, _⟩
    · exact ⟨c, by simp⟩
    · exact ⟨a, by simp⟩
    · exact ⟨y, hy⟩
  · rintro ⟨⟨h1, _, h3⟩, h2⟩
    refine ⟨h1, h2, h3, ?_, ?_⟩
    · have hle : (∑ b ∈ S, b.card) ≤ (slots o.spaces.length ops).length := by
        rw [← List.toFinset_card_of_nodup hn]
        refine le_trans (le_of_eq (Finset.card_biUnion (t := id) (fun b hb b' hb' hne => h3 b hb b' hb' hne)).symm) ?_
        exact Finset.card_le_card (fun a ha => by
          obtain ⟨b, hb, hab⟩ := Finset.mem_biUnion.1 ha
          exact h1 b hb hab)
      omega
    · omega

theorem con_cross {b : Finset Slot} (h : IsContraction o m b) : ¬ Mono Slot.op b := by
  obtain ⟨s, _, _, h⟩ := h
  intro hm
  rcases h with ⟨_, c, a, rfl, _, _, hlt⟩ | ⟨_, a, c, rfl, _, _, hlt⟩ | ⟨_, _, _, _, y, hy, z, hz, hne⟩
  · have := hm c (by simp) a (by simp); omega
  · have := hm c (by simp) a (by simp); omega
  · exact hne (hm y hy z hz)

/-- **Generalised Wick theorem** for the operators of a product -/
theorem schemes_gno {N : List (SQType × Ω) → B} (hN : IsGNO v.op ρ N) (href : v.HasReference o m ρ) (hm1 : 1 ≤ m)
    (hx : ∀ y ∈ slots o.spaces.length ops, x y ∈ v.dom y.space) {minr maxr : Int} (hmin : minr ≤ 0) (hmax : ((slots o.spaces.length ops).length : Int) ≤ maxr)
    {C : Type} [Ring C] [Algebra R C] (u : OrbSystem Ω R C) (hu : u.T = v.T) :
    (∑ S ∈ schemes o m ops minr maxr, (((orderSign (slots o.spaces.length ops) (S.toList.flatMap (conOrder (slots o.spaces.length ops)) ++ leftOver (slots o.spaces.length ops) S) : Int) : R) *
      ∏ b ∈ S, conVal u o (slots o.spaces.length ops) x b) • N ((leftOver (slots o.spaces.length ops) S).map (modeOf x))) =
    ((segs o.spaces.length 0 ops).map (fun l => N (l.map (modeOf x)))).prod := by
  classical
  have hn := nodup_slots o.spaces.length ops
  rw [segs_part, List.map_map]
  have hw := wick_list ρ.contraction (contraction_odd ρ) N (fun m => v.op m.1 m.2) hN (modeOf x) hn (slots_op_sorted _ ops) (n := ops.length)
    (fun y hy => (mem_slots.1 hy).1)
  refine Eq.trans ?_ hw.symm
  rw [Finset.sum_congr rfl (fun S hS => scheme_conTerm href hx (mem_bsets.1 ((mem_schemes_full hmin hmax).1 hS).1).1 ((mem_schemes_full hmin hmax).1 hS).2 u hu N)]
  apply Finset.sum_subset
  · intro S hS
    obtain ⟨h1, h2⟩ := (mem_schemes_full hmin hmax).1 hS
    exact Finset.mem_filter.2 ⟨h1, fun b hb => con_cross (h2 b hb)⟩
  · intro S hS hS'
    obtain ⟨h1, h2⟩ := Finset.mem_filter.1 hS
    have : ∃ b ∈ S, ¬ IsContraction o m b := by
      by_contra hc
      push Not at hc
      exact hS' ((mem_schemes_full hmin hmax).2 ⟨h1, hc⟩)
    obtain ⟨b, hb, hnc⟩ := this
    have h0 : ∏ b ∈ S, ρ.contraction ((partOf (slots o.spaces.length ops) b).map (modeOf x)) = 0 :=
      Finset.prod_eq_zero hb (contraction_zero href hm1 hx ((mem_bsets.1 h1).1 b hb) (h2 b hb) hnc)
    unfold conTerm
    rw [h0, mul_zero, zero_smul]

end
end Gno
end Wicked
