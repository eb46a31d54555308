import Verif.Proofs.WickScheme
import Verif.Proofs.WickCountG
/-! Contractions of second-quantized operators and contraction patterns -/
namespace Wicked
open CppLt CppEq Rational
namespace Wick

/-- the pattern of a set of operators -/
def patOf (n : Nat) (b : Finset Slot) : EContr :=
  (List.range n).map (fun A => GraphMatrix.tab (fun t => ((legCount b (A, t, true) : Int), (legCount b (A, t, false) : Int))))

theorem legCount_pos {b : Finset Slot} {k : Nat × Nat × Bool} : 0 < legCount b k ↔ ∃ x ∈ b, x.cls = k := by
  unfold legCount
  rw [Finset.card_pos]
  constructor
  · rintro ⟨x, hx⟩; have := Finset.mem_filter.1 hx; exact ⟨x, this.1, this.2⟩
  · rintro ⟨x, hx, h⟩; exact ⟨x, Finset.mem_filter.2 ⟨hx, h⟩⟩

theorem legCount_zero {b : Finset Slot} {k : Nat × Nat × Bool} (h : ∀ x ∈ b, x.cls ≠ k) : legCount b k = 0 := by
  by_contra hne
  obtain ⟨x, hx, e⟩ := legCount_pos.1 (Nat.pos_of_ne_zero hne)
  exact h x hx e

theorem legCount_mono {b b' : Finset Slot} (h : b ⊆ b') (k : Nat × Nat × Bool) : legCount b k ≤ legCount b' k := by
  unfold legCount
  exact Finset.card_le_card (Finset.filter_subset_filter _ h)

theorem legCount_slots {ns : Nat} {ops : OperatorProduct} {A s : Nat} (hA : A < ops.length) (hs : s < ns) (c : Bool) :
    legCount (slots ns ops).toFinset (A, s, c) = (if c then (opAt ops A).gm.cre s else (opAt ops A).gm.ann s).toNat := by
  rw [legCount_eq, lc_slots _ (by unfold kinds; simp [hA, hs])]
  unfold elegs
  rw [gmAt_ops ops _ hA]

section
variable {ns : Nat} {ops : OperatorProduct} {b : Finset Slot} (hb : b ⊆ (slots ns ops).toFinset)
include hb

theorem sub_slots {x : Slot} (hx : x ∈ b) : x.op < ops.length ∧ x.space < ns := by
  have := mem_slots.1 (List.mem_toFinset.1 (hb hx))
  exact ⟨this.1, this.2.1⟩

theorem elegs_patOf (h8 : ns ≤ 8) (k : Nat × Nat × Bool) : elegs (patOf ops.length b) k = legCount b k := by
  by_cases h1 : k.1 < ops.length
  · unfold elegs patOf
    rw [gmAt_map_range _ _ _ h1]
    unfold GraphMatrix.cre GraphMatrix.ann
    rw [gm_get_tab]
    by_cases h2 : k.2.1 < 8
    · rw [if_pos h2]
      obtain ⟨k1, k2, k3⟩ := k
      cases k3 <;> simp
    · rw [if_neg h2, legCount_zero]
      · simp
      · intro x hx he
        have := (sub_slots hb hx).2
        rw [← he] at h2
        exact h2 (show x.space < 8 by omega)
  · rw [elegs_out (by unfold patOf; simpa using h1), legCount_zero]
    intro x hx he
    rw [← he] at h1
    exact h1 (sub_slots hb hx).1

theorem patOf_legs (h8 : ns ≤ 8) {s : Nat} (hsp : ∀ x ∈ b, x.space = s) :
    Legs ops.length s (fun A => (legCount b (A, s, true) : Int)) (fun A => (legCount b (A, s, false) : Int)) (patOf ops.length b) := by
  refine ⟨by simp [patOf], ?_⟩
  intro A hA t
  have h0 : ∀ c, t ≠ s → legCount b (A, t, c) = 0 := by
    intro c ht
    apply legCount_zero
    intro x hx he
    apply ht
    rw [← hsp x hx]
    exact (congrArg (fun k => k.2.1) he).symm
  have h9 : ∀ c, 8 ≤ t → legCount b (A, t, c) = 0 := by
    intro c ht
    apply legCount_zero
    intro x hx he
    have h1 := (sub_slots hb hx).2
    have h2 : x.space = t := congrArg (fun k => k.2.1) he
    omega
  unfold patOf
  rw [gmAt_map_range _ _ _ hA]
  unfold GraphMatrix.cre GraphMatrix.ann
  rw [gm_get_tab]
  by_cases ht : t = s
  · subst ht
    rw [if_pos rfl, if_pos rfl]
    by_cases h2 : t < 8
    · rw [if_pos h2]; exact ⟨rfl, rfl⟩
    · beta_reduce; rw [if_neg h2, h9 _ (by omega), h9 _ (by omega)]; exact ⟨rfl, rfl⟩
  · rw [if_neg ht, if_neg ht, h0 _ ht, h0 _ ht]
    split <;> exact ⟨rfl, rfl⟩

theorem sum_legCount {s : Nat} (hsp : ∀ x ∈ b, x.space = s) (c : Bool) :
    ((List.range ops.length).map (fun A => (legCount b (A, s, c) : Int))).sum = ((b.filter (fun x => x.cre = c)).card : Int) := by
  have h1 : (b.filter (fun x => x.cre = c)).card = ∑ A ∈ Finset.range ops.length, legCount b (A, s, c) := by
    rw [Finset.card_eq_sum_card_fiberwise (f := Slot.op) (t := Finset.range ops.length)]
    · apply Finset.sum_congr rfl
      intro A _
      unfold legCount
      congr 1
      ext x
      simp only [Finset.mem_filter, Prod.mk.injEq]
      constructor
      · rintro ⟨⟨h1, h2⟩, h3⟩; exact ⟨h1, h3, hsp x h1, h2⟩
      · rintro ⟨h1, h2, _, h3⟩; exact ⟨⟨h1, h3⟩, h2⟩
    · intro x hx
      have hx := Finset.mem_filter.1 (Finset.mem_coe.1 hx)
      exact Finset.mem_coe.2 (Finset.mem_range.2 (sub_slots hb hx.1).1)
  rw [h1]
  clear h1
  induction ops.length with
  | zero => simp
  | succ n ih => rw [List.range_succ, List.map_append, List.sum_append, ih, Finset.sum_range_succ]; simp

end

theorem legCount_pair {c a : Slot} {s : Nat} (hc : c.cre = true) (ha : a.cre = false) (hcs : c.space = s) (has : a.space = s) (A : Nat) :
    legCount {c, a} (A, s, true) = (if A = c.op then 1 else 0) ∧ legCount {c, a} (A, s, false) = (if A = a.op then 1 else 0) := by
  have e1 : ({c, a} : Finset Slot).filter (fun x => (x.op, x.space, x.cre) = (A, s, true)) = if A = c.op then {c} else ∅ := by
    ext x
    simp only [Finset.mem_filter, Finset.mem_insert, Finset.mem_singleton, Prod.mk.injEq]
    constructor
    · rintro ⟨rfl | rfl, h1, h2, h3⟩
      · simp [h1]
      · rw [ha] at h3; cases h3
    · intro h
      split at h
      · rw [Finset.mem_singleton] at h; subst h; exact ⟨Or.inl rfl, by omega, hcs, hc⟩
      · simp at h
  have e2 : ({c, a} : Finset Slot).filter (fun x => (x.op, x.space, x.cre) = (A, s, false)) = if A = a.op then {a} else ∅ := by
    ext x
    simp only [Finset.mem_filter, Finset.mem_insert, Finset.mem_singleton, Prod.mk.injEq]
    constructor
    · rintro ⟨rfl | rfl, h1, h2, h3⟩
      · rw [hc] at h3; cases h3
      · simp [h1]
    · intro h
      split at h
      · rw [Finset.mem_singleton] at h; subst h; exact ⟨Or.inr rfl, by omega, has, ha⟩
      · simp at h
  unfold legCount
  rw [e1, e2]
  constructor <;> split <;> rfl

theorem legs_congr {n s : Nat} {c a c' a' : Nat → Int} {e : EContr} (h : Legs n s c a e) (hc : ∀ A < n, c A = c' A) (ha : ∀ A < n, a A = a' A) :
    Legs n s c' a' e := by
  refine ⟨h.1, fun A hA t => ?_⟩
  rw [← hc A hA, ← ha A hA]
  exact h.2 A hA t

/-- a contraction has an elementary pattern -/
theorem contraction_elementary {o : OSI} {m : Int} {ops : OperatorProduct} (h8 : o.spaces.length ≤ 8) (hv : ∀ p ∈ ops, p.Valid o.spaces.length)
    {b : Finset Slot} (hb : b ⊆ (slots o.spaces.length ops).toFinset) (h : IsContraction o m b) : IsElementary o m ops (patOf ops.length b) := by
  obtain ⟨s, hs, hsp, h⟩ := h
  have hL := patOf_legs hb h8 hsp
  have avail : ∀ x ∈ b, 1 ≤ (if x.cre then (opAt ops x.op).gm.cre s else (opAt ops x.op).gm.ann s) := by
    intro x hx
    have := (mem_slots.1 (List.mem_toFinset.1 (hb hx))).2.2
    rw [hsp x hx] at this
    cases hc : x.cre <;> simp [hc] at this ⊢ <;> omega
  refine ⟨s, hs, ?_⟩
  rcases h with ⟨ht, c, a, rfl, h1, h2, h3⟩ | ⟨ht, a, c, rfl, h1, h2, h3⟩ | ⟨ht, h1, h2, h3, x, hx, y, hy, hxy⟩
  · refine Or.inl ⟨ht, c.op, a.op, h3, (sub_slots hb (by simp : a ∈ ({c, a} : Finset Slot))).1, ?_, ?_, ?_⟩
    · have := avail c (by simp); rwa [if_pos h1] at this
    · have := avail a (by simp); rwa [if_neg (by rw [h2]; simp)] at this
    · refine legs_congr hL (fun A _ => ?_) (fun A _ => ?_)
      · rw [(legCount_pair h1 h2 (hsp c (by simp)) (hsp a (by simp)) A).1]; split <;> rfl
      · rw [(legCount_pair h1 h2 (hsp c (by simp)) (hsp a (by simp)) A).2]; split <;> rfl
  · rw [Finset.pair_comm] at *
    refine Or.inr (Or.inl ⟨ht, a.op, c.op, h3, (sub_slots hb (by simp : c ∈ ({c, a} : Finset Slot))).1, ?_, ?_, ?_⟩)
    · have := avail a (by simp); rwa [if_neg (by rw [h1]; simp)] at this
    · have := avail c (by simp); rwa [if_pos h2] at this
    · refine legs_congr hL (fun A _ => ?_) (fun A _ => ?_)
      · rw [(legCount_pair h2 h1 (hsp c (by simp)) (hsp a (by simp)) A).1]; split <;> rfl
      · rw [(legCount_pair h2 h1 (hsp c (by simp)) (hsp a (by simp)) A).2]; split <;> rfl
  · refine Or.inr (Or.inr ⟨ht, _, _, ((b.filter (fun x => x.cre = true)).card : Int), by exact_mod_cast h2, h3, ?_, sum_legCount hb hsp true, ?_, ?_, hL⟩)
    · intro A hA
      have hnn := hv (opAt ops A) (by unfold opAt; rw [List.getD_eq_getElem?_getD, List.getElem?_eq_getElem hA]; exact List.getElem_mem _) s
      have e1 := legCount_mono hb (A, s, true)
      have e2 := legCount_mono hb (A, s, false)
      rw [legCount_slots hA hs] at e1 e2
      simp only [if_true] at e1
      simp only [Bool.false_eq_true, if_false] at e2
      omega
    · rw [sum_legCount hb hsp false, h1]
    · have key : ∀ x ∈ b, 0 < (legCount b (x.op, s, true) : Int) + (legCount b (x.op, s, false) : Int) := by
        intro x hx
        have : 0 < legCount b (x.op, s, x.cre) := legCount_pos.2 ⟨x, hx, by unfold Slot.cls; rw [hsp x hx]⟩
        cases hc : x.cre <;> rw [hc] at this <;> omega
      rcases Nat.lt_or_gt_of_ne hxy with h | h
      · exact ⟨x.op, y.op, h, (sub_slots hb hy).1, key x hx, key y hy⟩
      · exact ⟨y.op, x.op, h, (sub_slots hb hx).1, key y hy, key x hx⟩

/-- the legs of a set of operators with the pattern `e` -/
theorem legs_of_elegs {n s : Nat} {c a : Nat → Int} {e : EContr} (hL : Legs n s c a e) {b : Finset Slot} (h : legCount b = elegs e) :
    (∀ x ∈ b, x.space = s ∧ x.op < n) ∧ (∀ A < n, legCount b (A, s, true) = (c A).toNat ∧ legCount b (A, s, false) = (a A).toNat) := by
  constructor
  · intro x hx
    have h1 : 0 < elegs e x.cls := by rw [← h]; exact legCount_pos.2 ⟨x, hx, rfl⟩
    have hlt : x.op < n := by
      by_contra hge
      rw [elegs_out (by rw [hL.1]; exact Nat.le_of_not_lt hge)] at h1
      omega
    refine ⟨?_, hlt⟩
    by_contra hne
    have := hL.2 x.op hlt x.space
    rw [if_neg hne, if_neg hne] at this
    unfold elegs Slot.cls at h1
    simp only [this.1, this.2] at h1
    simp at h1
  · intro A hA
    rw [h]
    have := hL.2 A hA s
    rw [if_pos rfl, if_pos rfl] at this
    unfold elegs
    simp [this.1, this.2]

/-- the set with one creation operator (of factor `l`) and one annihilation operator (of factor `r`) -/
theorem pair_of_legs {n s l r : Nat} {e : EContr} (hl : l < n) (hr : r < n)
    (hL : Legs n s (fun A => if A = l then 1 else 0) (fun A => if A = r then 1 else 0) e) {b : Finset Slot} (h : legCount b = elegs e) :
    ∃ c a : Slot, b = {c, a} ∧ c.cre = true ∧ a.cre = false ∧ c.op = l ∧ a.op = r := by
  obtain ⟨h1, h2⟩ := legs_of_elegs hL h
  have hc := (h2 l hl).1
  have ha := (h2 r hr).2
  simp only [if_true] at hc ha
  obtain ⟨c, hc⟩ := Finset.card_eq_one.1 (hc.trans (by rfl))
  obtain ⟨a, ha⟩ := Finset.card_eq_one.1 (ha.trans (by rfl))
  have hcm := Finset.mem_filter.1 (hc ▸ Finset.mem_singleton_self c)
  have ham := Finset.mem_filter.1 (ha ▸ Finset.mem_singleton_self a)
  simp only [Prod.mk.injEq] at hcm ham
  refine ⟨c, a, ?_, hcm.2.2.2, ham.2.2.2, hcm.2.1, ham.2.1⟩
  ext x
  rw [Finset.mem_insert, Finset.mem_singleton]
  constructor
  · intro hx
    have hx1 := h1 x hx
    have hp := legCount_pos.2 ⟨x, hx, rfl⟩
    have h3 := h2 x.op hx1.2
    unfold Slot.cls at hp
    rw [hx1.1] at hp
    cases hcr : x.cre
    · right
      rw [hcr, h3.2] at hp
      have : x.op = r := by by_contra hne; rw [if_neg hne] at hp; simp at hp
      rw [← Finset.mem_singleton, ← ha, Finset.mem_filter]
      exact ⟨hx, by rw [this, hx1.1, hcr]⟩
    · left
      rw [hcr, h3.1] at hp
      have : x.op = l := by by_contra hne; rw [if_neg hne] at hp; simp at hp
      rw [← Finset.mem_singleton, ← hc, Finset.mem_filter]
      exact ⟨hx, by rw [this, hx1.1, hcr]⟩
  · rintro (rfl | rfl)
    · exact hcm.1
    · exact ham.1

/-- a set of operators with an elementary pattern is a contraction -/
theorem elementary_contraction {o : OSI} {m : Int} {ops : OperatorProduct} {b : Finset Slot}
    (hb : b ⊆ (slots o.spaces.length ops).toFinset) {e : EContr} (he : IsElementary o m ops e) (h : legCount b = elegs e) : IsContraction o m b := by
  obtain ⟨s, hs, he⟩ := he
  rcases he with ⟨ht, l, r, hlr, hr, _, _, hL⟩ | ⟨ht, l, r, hlr, hr, _, _, hL⟩ | ⟨ht, c, a, k, hk, hk2, hbd, hc, ha, ⟨A, B, hAB, hB, h1, h2⟩, hL⟩
  · obtain ⟨c, a, rfl, h1, h2, rfl, rfl⟩ := pair_of_legs (by omega) hr hL h
    exact ⟨s, hs, fun x hx => ((legs_of_elegs hL h).1 x hx).1, Or.inl ⟨ht, c, a, rfl, h1, h2, hlr⟩⟩
  · obtain ⟨c, a, rfl, h1, h2, rfl, rfl⟩ := pair_of_legs hr (by omega) hL h
    exact ⟨s, hs, fun x hx => ((legs_of_elegs hL h).1 x hx).1, Or.inr (Or.inl ⟨ht, a, c, Finset.pair_comm _ _, h2, h1, hlr⟩)⟩
  · obtain ⟨h3, h4⟩ := legs_of_elegs hL h
    have hsp : ∀ x ∈ b, x.space = s := fun x hx => (h3 x hx).1
    have e1 : ((b.filter (fun x => x.cre = true)).card : Int) = k := by
      rw [← sum_legCount hb hsp true, ← hc]
      congr 1
      apply List.map_congr_left
      intro A hA
      rw [(h4 A (List.mem_range.1 hA)).1]
      exact Int.toNat_of_nonneg (hbd A (List.mem_range.1 hA)).1
    have e2 : ((b.filter (fun x => x.cre = false)).card : Int) = k := by
      rw [← sum_legCount hb hsp false, ← ha]
      congr 1
      apply List.map_congr_left
      intro A hA
      rw [(h4 A (List.mem_range.1 hA)).2]
      exact Int.toNat_of_nonneg (hbd A (List.mem_range.1 hA)).2.2.1
    have pick : ∀ A < ops.length, 0 < c A + a A → ∃ x ∈ b, x.op = A := by
      intro A hA hpos
      have := h4 A hA
      have hb' := hbd A hA
      have : 0 < legCount b (A, s, true) ∨ 0 < legCount b (A, s, false) := by omega
      rcases this with h | h
      · obtain ⟨x, hx, e⟩ := legCount_pos.1 h; exact ⟨x, hx, congrArg Prod.fst e⟩
      · obtain ⟨x, hx, e⟩ := legCount_pos.1 h; exact ⟨x, hx, congrArg Prod.fst e⟩
    obtain ⟨x, hx, hxA⟩ := pick A (by omega) h1
    obtain ⟨y, hy, hyB⟩ := pick B hB h2
    exact ⟨s, hs, hsp, Or.inr (Or.inr ⟨ht, by omega, by omega, by omega, x, hx, y, hy, by omega⟩)⟩

end Wick
end Wicked
