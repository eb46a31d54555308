import Verif.Proofs.GnoRef
import Verif.Proofs.WickProduct
/-! The schemes of `wickSum` are the contractions of the reference that link different factors -/
namespace Wicked
namespace Gno
open Wick
section
variable {Ω R B : Type} [Inhabited Ω] [DecidableEq Ω] [CommRing R] [Ring B] [Algebra R B]

theorem modeOf_cre {x : Slot → Ω} {y : Slot} (h : y.cre = true) : modeOf x y = (.creation, x y) := by
  unfold modeOf Slot.type; rw [h]; rfl
theorem modeOf_ann {x : Slot → Ω} {y : Slot} (h : y.cre = false) : modeOf x y = (.annihilation, x y) := by
  unfold modeOf Slot.type; rw [h]; rfl

theorem creOrbs_map (x : Slot → Ω) (l : List Slot) : creOrbs (l.map (modeOf x)) = (l.filter (fun y => y.cre)).map x := by
  induction l with
  | nil => rfl
  | cons y l ih =>
    rw [List.map_cons, List.filter_cons]
    cases h : y.cre
    · rw [modeOf_ann h, creOrbs_ann, ih]; simp
    · rw [modeOf_cre h, creOrbs_cre, ih]; simp

theorem annOrbs_map (x : Slot → Ω) (l : List Slot) : annOrbs (l.map (modeOf x)) = (l.filter (fun y => !y.cre)).map x := by
  induction l with
  | nil => rfl
  | cons y l ih =>
    rw [List.map_cons, List.filter_cons]
    cases h : y.cre
    · rw [modeOf_ann h, annOrbs_ann, ih]; simp
    · rw [modeOf_cre h, annOrbs_cre, ih]; simp

theorem part_cre (L : List Slot) (b : Finset Slot) : (partOf L b).filter (fun y => y.cre) = creOf L b := by
  unfold partOf creOf
  rw [List.filter_filter]
  apply List.filter_congr
  intro y _
  rw [Bool.and_comm]

theorem part_ann (L : List Slot) (b : Finset Slot) : (partOf L b).filter (fun y => !y.cre) = annOf L b := by
  unfold partOf annOf
  rw [List.filter_filter]
  apply List.filter_congr
  intro y _
  rw [Bool.and_comm]

theorem creFirst_sgR (x : Slot → Ω) {r : Slot → Int} (l : List Slot) (h : l.Pairwise (fun a b => r a < r b)) :
    creFirstSign (l.map (modeOf x)) = sgR r (l.filter (fun y => y.cre) ++ l.filter (fun y => !y.cre)) := by
  induction l with
  | nil => rfl
  | cons y l ih =>
    rw [List.pairwise_cons] at h
    have hlt : ∀ z ∈ l.filter (fun y => y.cre) ++ l.filter (fun y => !y.cre), r y < r z := by
      intro z hz
      rcases List.mem_append.1 hz with hz | hz
      · exact h.1 z (List.mem_filter.1 hz).1
      · exact h.1 z (List.mem_filter.1 hz).1
    have hhead : ∀ m : List Slot, (∀ z ∈ m, r y < r z) → sgR r (y :: m) = sgR r m := by
      intro m hm
      unfold sgR
      rw [pairProd, List.map_congr_left (g := fun _ => (1 : Int)) (fun z hz => if_neg (by have := hm z hz; omega))]
      simp
    rw [List.map_cons]
    cases hy : y.cre
    · rw [modeOf_ann hy, creFirstSign, ih h.2, List.filter_cons_of_neg (by simp [hy]), List.filter_cons_of_pos (by simp [hy])]
      have hm : ∀ (p q : List Slot), (∀ z ∈ p, r y < r z) → (∀ z ∈ q, r y < r z) → sgR r (p ++ y :: q) = (-1) ^ p.length * sgR r (p ++ q) := by
        intro p q hp hq
        induction p with
        | nil => rw [List.nil_append, hhead q hq]; simp
        | cons z p ihp =>
          have e1 : sgR r (z :: (p ++ y :: q)) = - (((p ++ q).map (fun b => if r b < r z then -1 else (1 : Int))).prod * sgR r (p ++ y :: q)) := by
            unfold sgR
            rw [pairProd]
            have : r y < r z := hp z (by simp)
            simp only [List.map_append, List.map_cons, List.prod_append, List.prod_cons, if_pos this]
            ring
          have e2 : sgR r (z :: (p ++ q)) = ((p ++ q).map (fun b => if r b < r z then -1 else (1 : Int))).prod * sgR r (p ++ q) := rfl
          rw [List.cons_append, List.cons_append, e1, e2, ihp (fun w hw => hp w (by simp [hw])), List.length_cons, pow_succ]
          ring
      rw [hm _ _ (fun z hz => hlt z (List.mem_append_left _ hz)) (fun z hz => hlt z (List.mem_append_right _ hz)), creOrbs_map, List.length_map]
    · rw [modeOf_cre hy, creFirstSign, ih h.2, List.filter_cons_of_pos (by simp [hy]), List.filter_cons_of_neg (by simp [hy]), List.cons_append, hhead _ hlt]

variable {v : OrbSystem Ω R B} {o : OSI} {m : Int} {ρ : Reference Ω R} {ops : OperatorProduct} {x : Slot → Ω}

theorem slots_op_sorted (ns : Nat) (ops : OperatorProduct) : (slots ns ops).Pairwise (fun a b => a.op ≤ b.op) :=
  (slots_bef ns ops).imp (fun h => h.elim (fun h => h.le) (fun h => h.1.le))

/-- a set of two operators, in the order in which they stand -/
theorem part_two {L : List Slot} (hn : L.Nodup) {b : Finset Slot} (hb : b ⊆ L.toFinset) (h2 : b.card = 2) :
    ∃ y z, partOf L b = [y, z] ∧ b = {y, z} ∧ y ∈ L ∧ z ∈ L ∧ y ≠ z ∧ posZ L y < posZ L z := by
  have hl := partOf_length hn hb
  rw [h2] at hl
  obtain ⟨y, z, hyz⟩ := List.length_eq_two.1 hl
  have hs : (partOf L b).Pairwise (fun a b => posI L a < posI L b) := (posI_sorted hn).sublist List.filter_sublist
  rw [hyz] at hs
  have hlt : posI L y < posI L z := (List.pairwise_cons.1 hs).1 z (by simp)
  have hy : y ∈ partOf L b := by rw [hyz]; simp
  have hz : z ∈ partOf L b := by rw [hyz]; simp
  refine ⟨y, z, hyz, ?_, (mem_partOf.1 hy).1, (mem_partOf.1 hz).1, ?_, hlt⟩
  · rw [← partOf_toFinset hb, hyz]; ext w; simp
  · rintro rfl; omega

theorem card_parts {L : List Slot} (hn : L.Nodup) {b : Finset Slot} (hb : b ⊆ L.toFinset) : b.card = (creOf L b).length + (annOf L b).length := by
  rw [card_blk hn hb]; unfold blk Block.flat; simp

theorem not_mono {b : Finset Slot} (h : ¬ Mono Slot.op b) : ∃ x ∈ b, ∃ y ∈ b, x.op ≠ y.op := by
  unfold Mono at h
  push Not at h
  exact h

/-- the value of a contraction -/
theorem contraction_value (href : v.HasReference o m ρ) (hx : ∀ y ∈ slots o.spaces.length ops, x y ∈ v.dom y.space) {b : Finset Slot}
    (hb : b ⊆ (slots o.spaces.length ops).toFinset) (h : IsContraction o m b) {C : Type} [Ring C] [Algebra R C] (u : OrbSystem Ω R C) (hu : u.T = v.T) :
    kv ρ.contraction (modeOf x) (slots o.spaces.length ops) b =
      ((sgR (posZ (slots o.spaces.length ops)) (conOrder (slots o.spaces.length ops) b) : Int) : R) * conVal u o (slots o.spaces.length ops) x b := by
  have hn := nodup_slots o.spaces.length ops
  have hbef : ∀ {y z}, y ∈ slots o.spaces.length ops → z ∈ slots o.spaces.length ops → y.op < z.op → posZ (slots o.spaces.length ops) y < posZ (slots o.spaces.length ops) z :=
    fun hy hz hlt => (posZ_bef hy hz).2 (Or.inl hlt)
  generalize slots o.spaces.length ops = L at *
  obtain ⟨s, hs, hsp, h⟩ := h
  have hdom : ∀ y ∈ b, x y ∈ v.dom s := fun y hy => by rw [← hsp y hy]; exact hx y (List.mem_toFinset.1 (hb hy))
  -- pairs
  have hpair : ∀ c a : Slot, b = {c, a} → c.cre = true → a.cre = false →
      (posZ L c < posZ L a ∧ partOf L b = [c, a] ∧ kv ρ.contraction (modeOf x) L b = ρ.gamma (x c) (x a) ∨
       posZ L a < posZ L c ∧ partOf L b = [a, c] ∧ kv ρ.contraction (modeOf x) L b = (if x c = x a then 1 else 0) - ρ.gamma (x c) (x a)) ∧
      ((sgR (posZ L) (conOrder L b) : Int) : R) = 1 ∧ creOf L b = [c] ∧ annOf L b = [a] := by
    intro c a he hc ha
    have hne : c ≠ a := by rintro rfl; rw [hc] at ha; cases ha
    have h2 : b.card = 2 := by rw [he]; exact Finset.card_pair hne
    obtain ⟨y, z, h1, hyz, hy, hz, hne', hlt⟩ := part_two hn hb h2
    refine ⟨?_, ?_, ?_⟩
    · have e1 : y ∈ ({c, a} : Finset Slot) := by rw [← he, hyz]; simp
      have e2 : z ∈ ({c, a} : Finset Slot) := by rw [← he, hyz]; simp
      simp only [Finset.mem_insert, Finset.mem_singleton] at e1 e2
      rcases e1 with rfl | rfl <;> rcases e2 with rfl | rfl
      · exact absurd rfl hne'
      · left
        refine ⟨hlt, h1, ?_⟩
        unfold kv
        rw [h1, List.map_cons, List.map_singleton, modeOf_cre hc, modeOf_ann ha]; rfl
      · right
        refine ⟨hlt, h1, ?_⟩
        unfold kv
        rw [h1, List.map_cons, List.map_singleton, modeOf_cre hc, modeOf_ann ha]; rfl
      · exact absurd rfl hne'
    · unfold conOrder
      rw [if_pos h2]
      have : sgR (posZ L) (L.filter (fun x => decide (x ∈ b))) = 1 := partOf_sorted (posI_sorted hn) b
      rw [this]; simp
    · have hbl := blk_pair hn (List.mem_toFinset.1 (hb (he ▸ by simp : c ∈ b))) (List.mem_toFinset.1 (hb (he ▸ by simp : a ∈ b))) hc ha
      rw [he]; exact hbl
  rcases h with ⟨ht, c, a, he, hc, ha, hlt⟩ | ⟨ht, a, c, he, ha, hc, hlt⟩ | ⟨ht, hcard, h1, hm, hxy⟩
  · obtain ⟨hp, hsg, hcs, has⟩ := hpair c a he hc ha
    have hcb : c ∈ b := he ▸ by simp
    have hab : a ∈ b := he ▸ by simp
    have hpos := hbef (List.mem_toFinset.1 (hb hcb)) (List.mem_toFinset.1 (hb hab)) hlt
    rw [hsg, one_mul]
    unfold conVal
    rw [hcs, has]
    dsimp only
    rw [hsp c hcb, ht]
    rcases hp with ⟨_, _, hk⟩ | ⟨hp, _⟩
    · rw [hk, href.occupied s hs ht _ (hdom c hcb) _ (hdom a hab)]
    · omega
  · obtain ⟨hp, hsg, hcs, has⟩ := hpair c a (by rw [he, Finset.pair_comm]) hc ha
    have hcb : c ∈ b := he ▸ by simp
    have hab : a ∈ b := he ▸ by simp
    have hpos := hbef (List.mem_toFinset.1 (hb hab)) (List.mem_toFinset.1 (hb hcb)) hlt
    rw [hsg, one_mul]
    unfold conVal
    rw [hcs, has]
    dsimp only
    rw [hsp c hcb, ht]
    rcases hp with ⟨hp, _⟩ | ⟨_, _, hk⟩
    · omega
    · rw [hk, href.unoccupied s hs ht _ (hdom c hcb) _ (hdom a hab), sub_zero]
  · rw [card_cre hn hb] at hcard h1 hm
    rw [card_ann hn hb] at hcard
    by_cases hk1 : (creOf L b).length = 1
    · obtain ⟨c, hcs⟩ := List.length_eq_one_iff.1 hk1
      obtain ⟨a, has⟩ := List.length_eq_one_iff.1 (hcard ▸ hk1 : (annOf L b).length = 1)
      have hc := mem_creOf.1 (by rw [hcs]; simp : c ∈ creOf L b)
      have ha := mem_annOf.1 (by rw [has]; simp : a ∈ annOf L b)
      have he : b = {c, a} := by
        ext y
        rw [Finset.mem_insert, Finset.mem_singleton]
        constructor
        · intro hy
          cases hyc : y.cre
          · right
            have : y ∈ annOf L b := mem_annOf.2 ⟨List.mem_toFinset.1 (hb hy), hy, hyc⟩
            rw [has] at this; simpa using this
          · left
            have : y ∈ creOf L b := mem_creOf.2 ⟨List.mem_toFinset.1 (hb hy), hy, hyc⟩
            rw [hcs] at this; simpa using this
        · rintro (rfl | rfl)
          · exact hc.2.1
          · exact ha.2.1
      obtain ⟨hp, hsg, _, _⟩ := hpair c a he hc.2.2 ha.2.2
      rw [hsg, one_mul]
      unfold conVal
      rw [hcs, has]
      dsimp only
      rw [hsp c hc.2.1, ht]
      dsimp only
      have hidx : (L.idxOf c < L.idxOf a) ↔ posZ L c < posZ L a := by unfold posZ; omega
      rcases hp with ⟨hlt, _, hk⟩ | ⟨hlt, _, hk⟩
      · rw [if_pos (hidx.2 hlt), hk, hu, href.gamma1 s hs ht _ (hdom c hc.2.1) _ (hdom a ha.2.1)]
      · rw [if_neg (fun h => by have := hidx.1 h; omega), hk, hu, href.eta1 s hs ht _ (hdom c hc.2.1) _ (hdom a ha.2.1)]
    · have hc := card_parts hn hb
      have h2 : b.card ≠ 2 := by omega
      have hk : 2 ≤ (creOf L b).length := by omega
      unfold kv
      rw [contraction_big ρ (by rw [List.length_map, partOf_length hn hb]; exact h2), creOrbs_map, annOrbs_map, part_cre, part_ann, List.length_map, List.length_map,
        if_pos ⟨hk, hcard⟩, creFirst_sgR x (partOf L b) ((posI_sorted hn).sublist List.filter_sublist), part_cre, part_ann]
      unfold conOrder
      rw [if_neg h2]
      congr 1
      have hl := href.lambda s hs ht ((creOf L b).map x) ((annOf L b).map x) (by simp [hcard]) (by simpa using hk)
        (by
          intro p hp
          obtain ⟨y, hy, rfl⟩ := List.mem_map.1 hp
          exact hdom y (mem_creOf.1 hy).2.1)
        (by
          intro p hp
          obtain ⟨y, hy, rfl⟩ := List.mem_map.1 hp
          exact hdom y (mem_annOf.1 hy).2.1)
      rw [← hl]
      unfold conVal
      rw [hu, List.length_map, ← List.map_reverse]
      split
      · rename_i h1 h2; rw [h1] at hk; simp at hk
      · rfl

/-- blocks that link different factors and are not contractions have no value -/
theorem contraction_zero (href : v.HasReference o m ρ) (hm1 : 1 ≤ m) (hx : ∀ y ∈ slots o.spaces.length ops, x y ∈ v.dom y.space) {b : Finset Slot}
    (hb : b ⊆ (slots o.spaces.length ops).toFinset) (hcross : ¬ Mono Slot.op b) (h : ¬ IsContraction o m b) :
    kv ρ.contraction (modeOf x) (slots o.spaces.length ops) b = 0 := by
  have hn := nodup_slots o.spaces.length ops
  have hsp : ∀ y ∈ b, y.space < o.spaces.length := fun y hy => (mem_slots.1 (List.mem_toFinset.1 (hb hy))).2.1
  have hbef : ∀ {y z}, y ∈ slots o.spaces.length ops → z ∈ slots o.spaces.length ops → posZ (slots o.spaces.length ops) y < posZ (slots o.spaces.length ops) z → y.op ≤ z.op :=
    fun hy hz hlt => by
      have := (posZ_bef hy hz).1 hlt
      rcases this with h | h
      · omega
      · omega
  generalize slots o.spaces.length ops = L at *
  have hdom : ∀ y ∈ b, x y ∈ v.dom y.space := fun y hy => hx y (List.mem_toFinset.1 (hb hy))
  by_cases h2 : b.card = 2
  · obtain ⟨y, z, h1, hyz, hy, hz, hne, hlt⟩ := part_two hn hb h2
    have hyb : y ∈ b := hyz ▸ by simp
    have hzb : z ∈ b := hyz ▸ by simp
    have hop : y.op < z.op := by
      have hle := hbef hy hz hlt
      obtain ⟨p, hp, q, hq, hpq⟩ := not_mono hcross
      rw [hyz] at hp hq
      simp only [Finset.mem_insert, Finset.mem_singleton] at hp hq
      rcases hp with rfl | rfl <;> rcases hq with rfl | rfl <;> omega
    unfold kv
    rw [h1, List.map_cons, List.map_singleton]
    have hsame : y.space = z.space → ∀ w ∈ b, w.space = y.space := by
      intro he w hw
      rw [hyz] at hw
      simp only [Finset.mem_insert, Finset.mem_singleton] at hw
      rcases hw with rfl | rfl
      · rfl
      · exact he.symm
    have hgen : o.spaceType y.space = .ok .general → y.space = z.space → y.cre ≠ z.cre → False := by
      intro ht hsame' hc
      apply h
      refine ⟨y.space, hsp y hyb, hsame hsame', Or.inr (Or.inr ⟨ht, ?_, ?_, ?_, y, hyb, z, hzb, by omega⟩)⟩
      all_goals rw [hyz]
      all_goals cases hcy : y.cre <;> cases hcz : z.cre
      all_goals first | (rw [hcy, hcz] at hc; exact absurd rfl hc) | skip
      all_goals simp [Finset.filter_insert, Finset.filter_singleton, hcy, hcz, hm1]
    cases hcy : y.cre <;> cases hcz : z.cre
    · rw [modeOf_ann hcy, modeOf_ann hcz]; rfl
    · rw [modeOf_ann hcy, modeOf_cre hcz]
      show (if x z = x y then 1 else 0) - ρ.gamma (x z) (x y) = 0
      by_cases hs : y.space = z.space
      · obtain ⟨t, ht⟩ := spaceType_lt (hsp y hyb)
        have hzd : x z ∈ v.dom y.space := by rw [hs]; exact hdom z hzb
        cases t with
        | occupied => rw [href.occupied _ (hsp y hyb) ht _ hzd _ (hdom y hyb), sub_self]
        | unoccupied => exact absurd ⟨y.space, hsp y hyb, hsame hs, Or.inr (Or.inl ⟨ht, y, z, hyz, hcy, hcz, hop⟩)⟩ h
        | general => exact (hgen ht hs (by rw [hcy, hcz]; decide)).elim
      · rw [href.uncorrelated_gamma _ _ (hsp z hzb) (hsp y hyb) (fun e => hs e.symm) _ (hdom z hzb) _ (hdom y hyb), if_neg, sub_zero]
        intro e
        exact href.disjoint _ _ (hsp z hzb) (hsp y hyb) (fun e => hs e.symm) _ (hdom z hzb) (by rw [e]; exact hdom y hyb)
    · rw [modeOf_cre hcy, modeOf_ann hcz]
      show ρ.gamma (x y) (x z) = 0
      by_cases hs : y.space = z.space
      · obtain ⟨t, ht⟩ := spaceType_lt (hsp y hyb)
        have hzd : x z ∈ v.dom y.space := by rw [hs]; exact hdom z hzb
        cases t with
        | occupied => exact absurd ⟨y.space, hsp y hyb, hsame hs, Or.inl ⟨ht, y, z, hyz, hcy, hcz, hop⟩⟩ h
        | unoccupied => exact href.unoccupied _ (hsp y hyb) ht _ (hdom y hyb) _ hzd
        | general => exact (hgen ht hs (by rw [hcy, hcz]; decide)).elim
      · exact href.uncorrelated_gamma _ _ (hsp y hyb) (hsp z hzb) hs _ (hdom y hyb) _ (hdom z hzb)
    · rw [modeOf_cre hcy, modeOf_cre hcz]; rfl
  · unfold kv
    rw [contraction_big ρ (by rw [List.length_map, partOf_length hn hb]; exact h2), creOrbs_map, annOrbs_map, part_cre, part_ann, List.length_map, List.length_map]
    split
    · rename_i hc
      have hzero : ρ.cumulant ((creOf L b).map x) ((annOf L b).map x) = 0 := by
        by_cases hbd : m < ((creOf L b).length : Int)
        · exact href.bounded _ _ (by simpa using hbd)
        · apply href.uncorrelated _ _ (by simpa using hc.2) (by simpa using hc.1)
          rintro ⟨s, hs, ht, hcs, has⟩
          apply h
          refine ⟨s, hs, ?_, Or.inr (Or.inr ⟨ht, ?_, ?_, ?_, not_mono hcross⟩)⟩
          · intro y hy
            have hxs : x y ∈ v.dom s := by
              cases hyc : y.cre
              · exact has _ (List.mem_map_of_mem (mem_annOf.2 ⟨List.mem_toFinset.1 (hb hy), hy, hyc⟩))
              · exact hcs _ (List.mem_map_of_mem (mem_creOf.2 ⟨List.mem_toFinset.1 (hb hy), hy, hyc⟩))
            by_contra hne
            exact href.disjoint _ _ hs (hsp y hy) (fun e => hne e.symm) _ hxs (hdom y hy)
          · rw [card_cre hn hb, card_ann hn hb]; exact hc.2
          · rw [card_cre hn hb]; omega
          · rw [card_cre hn hb]; omega
      rw [hzero, mul_zero]
    · rfl

end
end Gno
end Wicked
