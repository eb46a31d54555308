import Verif.Proofs.LexPerms
import Verif.Spec.Wick
/-! Step 1 of Wick's theorem: the generated elementary contractions -/
namespace Wicked
open CppLt CppEq

theorem legs_unique {n s : Nat} {c a : Nat → Int} {e e' : EContr} (h : Legs n s c a e) (h' : Legs n s c a e') :
    e = e' := by
  apply List.ext_getElem (by rw [h.1, h'.1])
  intro i h1 h2
  have hi : i < n := by rw [← h.1]; exact h1
  have e1 : gmAt e i = e[i] := by simp [gmAt, h1]
  have e2 : gmAt e' i = e'[i] := by simp [gmAt, h2]
  rw [← e1, ← e2]
  apply gm_ext2
  · intro t _; rw [(h.2 i hi t).1, (h'.2 i hi t).1]
  · intro t _; rw [(h.2 i hi t).2, (h'.2 i hi t).2]

theorem legs_congr {n s : Nat} {c a c' a' : Nat → Int} {e : EContr} (hc : ∀ A < n, c A = c' A) (ha : ∀ A < n, a A = a' A)
    (h : Legs n s c a e) : Legs n s c' a' e :=
  ⟨h.1, fun A hA t => by rw [← hc A hA, ← ha A hA]; exact h.2 A hA t⟩

theorem legs_space {n s s' : Nat} {c a c' a' : Nat → Int} {e : EContr} (h : Legs n s c a e) (h' : Legs n s' c' a' e)
    {A : Nat} (hA : A < n) (hp : c A ≠ 0 ∨ a A ≠ 0) : s = s' := by
  by_contra hne
  have h1 := h.2 A hA s
  have h2 := h'.2 A hA s
  rw [if_pos rfl, if_pos rfl] at h1
  rw [if_neg hne, if_neg hne] at h2
  rcases hp with hp | hp
  · exact hp (h1.1.symm.trans h2.1)
  · exact hp (h1.2.symm.trans h2.2)

theorem legs_counts {n s : Nat} {c a c' a' : Nat → Int} {e : EContr} (h : Legs n s c a e) (h' : Legs n s c' a' e)
    {A : Nat} (hA : A < n) : c A = c' A ∧ a A = a' A := by
  have h1 := h.2 A hA s
  have h2 := h'.2 A hA s
  rw [if_pos rfl, if_pos rfl] at h1 h2
  exact ⟨h1.1.symm.trans h2.1, h1.2.symm.trans h2.2⟩

theorem gmAt_pair (n l r : Nat) (f g : GraphMatrix → GraphMatrix) (hl : l < n) (hr : r < n) (hlr : l ≠ r) (A : Nat)
    (hA : A < n) :
    gmAt (((List.replicate n GraphMatrix.zero).modify l f).modify r g) A =
      if A = r then g GraphMatrix.zero else if A = l then f GraphMatrix.zero else GraphMatrix.zero := by
  unfold gmAt
  rw [List.getD_eq_getElem?_getD, List.getElem?_modify, List.getElem?_modify, List.getElem?_replicate]
  rw [if_pos hA]
  by_cases h1 : A = r
  · subst h1; simp [hlr]
  · have h1' : r ≠ A := fun e => h1 e.symm
    by_cases h2 : A = l
    · subst h2; simp [h1, h1']
    · have h2' : l ≠ A := fun e => h2 e.symm
      simp [h1, h1', h2, h2']

theorem legs_pair_cre_ann (n s l r : Nat) (hs : s < 8) (hl : l < n) (hr : r < n) (hlr : l ≠ r) :
    Legs n s (fun A => if A = l then 1 else 0) (fun A => if A = r then 1 else 0)
      (((List.replicate n GraphMatrix.zero).modify l (fun g => g.setCre s 1)).modify r (fun g => g.setAnn s 1)) := by
  refine ⟨by simp, fun A hA t => ?_⟩
  rw [gmAt_pair n l r _ _ hl hr hlr A hA]
  by_cases h1 : A = r
  · subst h1
    have : A ≠ l := fun e => hlr e.symm
    simp [this, GraphMatrix.cre_setAnn, GraphMatrix.ann_setAnn, hs]
  · by_cases h2 : A = l
    · subst h2
      simp [h1, GraphMatrix.cre_setCre, GraphMatrix.ann_setCre, hs]
    · simp [h1, h2]

theorem legs_pair_ann_cre (n s l r : Nat) (hs : s < 8) (hl : l < n) (hr : r < n) (hlr : l ≠ r) :
    Legs n s (fun A => if A = r then 1 else 0) (fun A => if A = l then 1 else 0)
      (((List.replicate n GraphMatrix.zero).modify l (fun g => g.setAnn s 1)).modify r (fun g => g.setCre s 1)) := by
  refine ⟨by simp, fun A hA t => ?_⟩
  rw [gmAt_pair n l r _ _ hl hr hlr A hA]
  by_cases h1 : A = r
  · subst h1
    have : A ≠ l := fun e => hlr e.symm
    simp [this, GraphMatrix.cre_setCre, GraphMatrix.ann_setCre, hs]
  · by_cases h2 : A = l
    · subst h2
      simp [h1, GraphMatrix.cre_setAnn, GraphMatrix.ann_setAnn, hs]
    · simp [h1, h2]

/-- shape shared by the two pair generators -/
theorem pairs_mem {n : Nat} {α : Type _} (P : Nat → Nat → Prop) [∀ l r, Decidable (P l r)] (f : Nat → Nat → α) (e : α) :
    e ∈ ((List.range n).flatMap (fun l => (List.range' (l + 1) (n - (l + 1))).flatMap (fun r =>
      if P l r then [f l r] else []))) ↔ ∃ l r, l < r ∧ r < n ∧ P l r ∧ e = f l r := by
  simp only [List.mem_flatMap, List.mem_range, List.mem_range'_1]
  constructor
  · rintro ⟨l, hl, r, hr, he⟩
    by_cases h : P l r
    · rw [if_pos h] at he; simp at he
      exact ⟨l, r, by omega, by omega, h, he⟩
    · rw [if_neg h] at he; simp at he
  · rintro ⟨l, r, h1, h2, h3, rfl⟩
    exact ⟨l, by omega, r, by omega, by rw [if_pos h3]; simp⟩

theorem pairs_nodup {n : Nat} {α : Type _} (P : Nat → Nat → Prop) [∀ l r, Decidable (P l r)] (f : Nat → Nat → α)
    (hf : ∀ l r l' r', l < r → r < n → l' < r' → r' < n → f l r = f l' r' → l = l' ∧ r = r') :
    ((List.range n).flatMap (fun l => (List.range' (l + 1) (n - (l + 1))).flatMap (fun r =>
      if P l r then [f l r] else []))).Nodup := by
  have inner : ∀ l, ∀ e, e ∈ (List.range' (l + 1) (n - (l + 1))).flatMap (fun r =>
      if P l r then [f l r] else []) → ∃ r, l < r ∧ r < n ∧ e = f l r := by
    intro l e he
    simp only [List.mem_flatMap, List.mem_range'_1] at he
    obtain ⟨r, hr, he⟩ := he
    by_cases h : P l r
    · rw [if_pos h] at he; simp at he; exact ⟨r, by omega, by omega, he⟩
    · rw [if_neg h] at he; simp at he
  rw [List.nodup_flatMap]
  constructor
  · intro l hl
    rw [List.mem_range] at hl
    rw [List.nodup_flatMap]
    constructor
    · intro r _; split <;> simp
    · refine List.Pairwise.imp_of_mem ?_ (List.nodup_range' (s := l + 1) (n := n - (l + 1)))
      intro r r' hr hr' hne
      rw [List.mem_range'_1] at hr hr'
      rw [Function.onFun, List.disjoint_left]
      intro e he he'
      split at he
      · split at he'
        · simp at he he'
          exact hne (hf l r l r' (by omega) (by omega) (by omega) (by omega) (he.symm.trans he')).2
        · simp at he'
      · simp at he
  · refine List.Pairwise.imp_of_mem ?_ (List.nodup_range (n := n))
    intro l l' hl hl' hne
    rw [Function.onFun, List.disjoint_left]
    intro e he he'
    obtain ⟨r, h1, h2, rfl⟩ := inner l e he
    obtain ⟨r', h1', h2', h3⟩ := inner l' _ he'
    exact hne (hf l r l' r' h1 h2 h1' h2' h3).1

theorem mul_pos_iff_of_nonneg {a b : Int} (ha : 0 ≤ a) (hb : 0 ≤ b) : a * b > 0 ↔ 1 ≤ a ∧ 1 ≤ b := by
  constructor
  · intro h
    constructor
    · by_contra hn
      have : a = 0 := by omega
      subst this; simp at h
    · by_contra hn
      have : b = 0 := by omega
      subst this; simp at h
  · rintro ⟨h1, h2⟩
    exact Int.mul_pos (by omega) (by omega)

theorem opAt_nonneg {ns : Nat} {ops : OperatorProduct} (hv : ∀ p ∈ ops, p.Valid ns) (A s : Nat) :
    0 ≤ (opAt ops A).gm.cre s ∧ 0 ≤ (opAt ops A).gm.ann s := by
  unfold opAt
  rw [List.getD_eq_getElem?_getD]
  rcases h : ops[A]? with _ | p
  · simp
  · have := hv p (List.mem_of_getElem? h)
    exact ⟨(this s).1, (this s).2.1⟩

theorem ind_inj {l l' : Nat} (h : (if l = l then (1 : Int) else 0) = if l = l' then 1 else 0) : l = l' := by
  by_contra hn; rw [if_pos rfl, if_neg hn] at h; cases h

theorem occupied_spec {ns : Nat} {ops : OperatorProduct} (hv : ∀ p ∈ ops, p.Valid ns) {s : Nat} (hs : s < 8) :
    (Wick.elemOccupied ops s).Nodup ∧ ∀ e, e ∈ Wick.elemOccupied ops s ↔
      ∃ l r, l < r ∧ r < ops.length ∧ 1 ≤ (opAt ops l).gm.cre s ∧ 1 ≤ (opAt ops r).gm.ann s ∧
        Legs ops.length s (fun A => if A = l then 1 else 0) (fun A => if A = r then 1 else 0) e := by
  constructor
  · apply pairs_nodup
    intro l r l' r' h1 h2 h1' h2' he
    have L := legs_pair_cre_ann ops.length s l r hs (by omega) h2 (by omega)
    have L' := legs_pair_cre_ann ops.length s l' r' hs (by omega) h2' (by omega)
    rw [he] at L
    have hl := (legs_counts L L' (A := l) (by omega)).1
    have hr := (legs_counts L L' (A := r) (by omega)).2
    exact ⟨ind_inj hl, ind_inj hr⟩
  · intro e
    rw [Wick.elemOccupied, pairs_mem]
    constructor
    · rintro ⟨l, r, h1, h2, h3, rfl⟩
      rw [mul_pos_iff_of_nonneg (opAt_nonneg hv l s).1 (opAt_nonneg hv r s).2] at h3
      exact ⟨l, r, h1, h2, h3.1, h3.2, legs_pair_cre_ann ops.length s l r hs (by omega) h2 (by omega)⟩
    · rintro ⟨l, r, h1, h2, h3, h4, h5⟩
      refine ⟨l, r, h1, h2, ?_, ?_⟩
      · rw [mul_pos_iff_of_nonneg (opAt_nonneg hv l s).1 (opAt_nonneg hv r s).2]; exact ⟨h3, h4⟩
      · exact legs_unique h5 (legs_pair_cre_ann ops.length s l r hs (by omega) h2 (by omega))

theorem unoccupied_spec {ns : Nat} {ops : OperatorProduct} (hv : ∀ p ∈ ops, p.Valid ns) {s : Nat} (hs : s < 8) :
    (Wick.elemUnoccupied ops s).Nodup ∧ ∀ e, e ∈ Wick.elemUnoccupied ops s ↔
      ∃ l r, l < r ∧ r < ops.length ∧ 1 ≤ (opAt ops l).gm.ann s ∧ 1 ≤ (opAt ops r).gm.cre s ∧
        Legs ops.length s (fun A => if A = r then 1 else 0) (fun A => if A = l then 1 else 0) e := by
  constructor
  · apply pairs_nodup
    intro l r l' r' h1 h2 h1' h2' he
    have L := legs_pair_ann_cre ops.length s l r hs (by omega) h2 (by omega)
    have L' := legs_pair_ann_cre ops.length s l' r' hs (by omega) h2' (by omega)
    rw [he] at L
    have hl := (legs_counts L L' (A := l) (by omega)).2
    have hr := (legs_counts L L' (A := r) (by omega)).1
    exact ⟨ind_inj hl, ind_inj hr⟩
  · intro e
    rw [Wick.elemUnoccupied, pairs_mem]
    constructor
    · rintro ⟨l, r, h1, h2, h3, rfl⟩
      rw [mul_pos_iff_of_nonneg (opAt_nonneg hv l s).2 (opAt_nonneg hv r s).1] at h3
      exact ⟨l, r, h1, h2, h3.1, h3.2, legs_pair_ann_cre ops.length s l r hs (by omega) h2 (by omega)⟩
    · rintro ⟨l, r, h1, h2, h3, h4, h5⟩
      refine ⟨l, r, h1, h2, ?_, ?_⟩
      · rw [mul_pos_iff_of_nonneg (opAt_nonneg hv l s).2 (opAt_nonneg hv r s).1]; exact ⟨h3, h4⟩
      · exact legs_unique h5 (legs_pair_ann_cre ops.length s l r hs (by omega) h2 (by omega))

/-! ### general spaces -/

theorem legs_general (n s : Nat) (hs : s < 8) (c a : List Int) :
    Legs n s (fun A => c.getD A 0) (fun A => a.getD A 0)
      ((List.range n).map (fun A => (GraphMatrix.zero.setCre s (c.getD A 0)).setAnn s (a.getD A 0))) := by
  refine ⟨by simp, fun A hA t => ?_⟩
  have : gmAt ((List.range n).map (fun A => (GraphMatrix.zero.setCre s (c.getD A 0)).setAnn s (a.getD A 0))) A
      = (GraphMatrix.zero.setCre s (c.getD A 0)).setAnn s (a.getD A 0) := by
    simp [gmAt, hA]
  rw [this, GraphMatrix.cre_setAnn, GraphMatrix.cre_setCre _ _ _ _ hs, GraphMatrix.ann_setAnn _ _ _ _ hs,
    GraphMatrix.ann_setCre]
  simp

theorem two_le_countP {n : Nat} (p : Nat → Bool) :
    2 ≤ (List.range n).countP p ↔ ∃ A B, A < B ∧ B < n ∧ p A = true ∧ p B = true := by
  rw [List.countP_eq_length_filter]
  constructor
  · intro h
    have hs : ((List.range n).filter p).Pairwise (· < ·) := List.pairwise_lt_range.filter _
    match hl : (List.range n).filter p with
    | [] => rw [hl] at h; simp at h
    | [_] => rw [hl] at h; simp at h
    | A :: B :: l =>
      rw [hl] at hs
      have hA : A ∈ (List.range n).filter p := by rw [hl]; simp
      have hB : B ∈ (List.range n).filter p := by rw [hl]; simp
      rw [List.mem_filter, List.mem_range] at hA hB
      exact ⟨A, B, (List.pairwise_cons.1 hs).1 B (by simp), hB.1, hA.2, hB.2⟩
  · rintro ⟨A, B, h1, h2, h3, h4⟩
    have : [A, B].Subperm ((List.range n).filter p) := by
      rw [List.subperm_ext_iff]
      intro x hx
      have hx' : x = A ∨ x = B := by simpa using hx
      have hm : x ∈ (List.range n).filter p := by
        rw [List.mem_filter, List.mem_range]
        rcases hx' with rfl | rfl
        · exact ⟨by omega, h3⟩
        · exact ⟨by omega, h4⟩
      have h1' : 1 ≤ List.count x ((List.range n).filter p) := List.one_le_count_iff.2 hm
      have hnd : [A, B].Nodup := by simp; omega
      exact (List.nodup_iff_count_le_one.1 hnd x).trans h1'
    have := this.length_le
    simpa using this

theorem list_as_fun (p : List Int) (n : Nat) (h : p.length = n) : p = (List.range n).map (fun A => p.getD A 0) := by
  apply List.ext_getElem
  · simp [h]
  · intro i h1 h2; simp [h1]

theorem generalK_spec {ops : OperatorProduct} {s : Nat} (hs : s < 8)
    {k : Int} (hk : 1 ≤ k) (hn : 1 ≤ ops.length) :
    ∃ L, Wick.elemGeneralK ops s k = .ok L ∧ L.Nodup ∧ ∀ e, e ∈ L ↔
      ∃ c a : Nat → Int,
        (∀ A < ops.length, 0 ≤ c A ∧ c A ≤ (opAt ops A).gm.cre s ∧ 0 ≤ a A ∧ a A ≤ (opAt ops A).gm.ann s) ∧
        ((List.range ops.length).map c).sum = k ∧ ((List.range ops.length).map a).sum = k ∧
        (∃ A B, A < B ∧ B < ops.length ∧ 0 < c A + a A ∧ 0 < c B + a B) ∧
        Legs ops.length s c a e := by
  obtain ⟨L, h1, h2, h3⟩ := legPerms_spec k ops.length hk hn
  unfold Wick.elemGeneralK
  rw [h1]
  refine ⟨_, rfl, ?_, ?_⟩
  · -- no duplicates
    have key : ∀ c ∈ L, ∀ a ∈ L, ∀ c' ∈ L, ∀ a' ∈ L,
        (List.range ops.length).map (fun A => (GraphMatrix.zero.setCre s (c.getD A 0)).setAnn s (a.getD A 0)) =
        (List.range ops.length).map (fun A => (GraphMatrix.zero.setCre s (c'.getD A 0)).setAnn s (a'.getD A 0)) →
        c = c' ∧ a = a' := by
      intro c hc a ha c' hc' a' ha' he
      have L1 := legs_general ops.length s hs c a
      have L2 := legs_general ops.length s hs c' a'
      rw [he] at L1
      have hcc : ∀ A < ops.length, c.getD A 0 = c'.getD A 0 := fun A hA => (legs_counts L1 L2 hA).1
      have haa : ∀ A < ops.length, a.getD A 0 = a'.getD A 0 := fun A hA => (legs_counts L1 L2 hA).2
      constructor
      · rw [list_as_fun c _ ((h3 c).1 hc).1, list_as_fun c' _ ((h3 c').1 hc').1]
        apply List.map_congr_left; intro A hA; exact hcc A (List.mem_range.1 hA)
      · rw [list_as_fun a _ ((h3 a).1 ha).1, list_as_fun a' _ ((h3 a').1 ha').1]
        apply List.map_congr_left; intro A hA; exact haa A (List.mem_range.1 hA)
    rw [List.nodup_flatMap]
    constructor
    · intro c hc
      have hc := (List.mem_filter.1 hc).1
      rw [List.nodup_flatMap]
      constructor
      · intro a _; split <;> simp
      · refine List.Pairwise.imp_of_mem ?_ (h2.filter _)
        intro a a' ha ha' hne
        have ha := (List.mem_filter.1 ha).1
        have ha' := (List.mem_filter.1 ha').1
        rw [Function.onFun, List.disjoint_left]
        intro e he he'
        split at he
        · simp at he
        · split at he'
          · simp at he'
          · rw [List.mem_singleton] at he he'
            exact hne (key c hc a ha c hc a' ha' (he.symm.trans he')).2
    · refine List.Pairwise.imp_of_mem ?_ (h2.filter _)
      intro c c' hc hc' hne
      have hc := (List.mem_filter.1 hc).1
      have hc' := (List.mem_filter.1 hc').1
      rw [Function.onFun, List.disjoint_left]
      intro e he he'
      rw [List.mem_flatMap] at he he'
      obtain ⟨a, ha, he⟩ := he
      obtain ⟨a', ha', he'⟩ := he'
      have ha := (List.mem_filter.1 ha).1
      have ha' := (List.mem_filter.1 ha').1
      split at he
      · simp at he
      · split at he'
        · simp at he'
        · rw [List.mem_singleton] at he he'
          exact hne (key c hc a ha c' hc' a' ha' (he.symm.trans he')).1
  · intro e
    simp only [List.mem_flatMap, List.mem_filter, h3]
    have compat : ∀ (av : Nat → Int) (p : List Int), Wick.compatible ops.length av p = true ↔
        ∀ A < ops.length, p.getD A 0 ≤ av A := by
      intro av p
      simp [Wick.compatible]
    constructor
    · rintro ⟨c, ⟨hc, hcc⟩, a, ⟨ha, hac⟩, he⟩
      split at he
      · simp at he
      · rename_i hno
        rw [List.mem_singleton] at he
        subst he
        rw [compat] at hcc hac
        refine ⟨fun A => c.getD A 0, fun A => a.getD A 0, ?_, ?_, ?_, ?_, legs_general _ _ hs c a⟩
        · intro A hA
          have hA1 : A < c.length := by rw [hc.1]; exact hA
          have hA2 : A < a.length := by rw [ha.1]; exact hA
          refine ⟨?_, hcc A hA, ?_, hac A hA⟩
          · have := hc.2.1 _ (List.getElem_mem hA1); simpa [hA1] using this
          · have := ha.2.1 _ (List.getElem_mem hA2); simpa [hA2] using this
        · rw [← list_as_fun c _ hc.1]; exact hc.2.2
        · rw [← list_as_fun a _ ha.1]; exact ha.2.2
        · have : 2 ≤ Wick.nopsContracted ops.length c a := by omega
          rw [Wick.nopsContracted, two_le_countP] at this
          obtain ⟨A, B, h1, h2, h3, h4⟩ := this
          exact ⟨A, B, h1, h2, by simpa using h3, by simpa using h4⟩
    · rintro ⟨c, a, hca, hcs, has, htwo, hL⟩
      have gc : ∀ A < ops.length, ((List.range ops.length).map c).getD A 0 = c A := by
        intro A hA; simp [hA]
      have ga : ∀ A < ops.length, ((List.range ops.length).map a).getD A 0 = a A := by
        intro A hA; simp [hA]
      refine ⟨(List.range ops.length).map c, ⟨⟨by simp, ?_, hcs⟩, ?_⟩, (List.range ops.length).map a,
        ⟨⟨by simp, ?_, has⟩, ?_⟩, ?_⟩
      · intro x hx; obtain ⟨A, hA, rfl⟩ := List.mem_map.1 hx; exact (hca A (List.mem_range.1 hA)).1
      · rw [compat]; intro A hA; rw [gc A hA]; exact (hca A hA).2.1
      · intro x hx; obtain ⟨A, hA, rfl⟩ := List.mem_map.1 hx; exact (hca A (List.mem_range.1 hA)).2.2.1
      · rw [compat]; intro A hA; rw [ga A hA]; exact (hca A hA).2.2.2
      · have h2 : 2 ≤ Wick.nopsContracted ops.length ((List.range ops.length).map c) ((List.range ops.length).map a) := by
          rw [Wick.nopsContracted, two_le_countP]
          obtain ⟨A, B, h1, h2, h3, h4⟩ := htwo
          refine ⟨A, B, h1, h2, ?_, ?_⟩
          · rw [gc A (by omega), ga A (by omega)]; simpa using h3
          · rw [gc B h2, ga B h2]; simpa using h4
        rw [if_neg (by omega), List.mem_singleton]
        exact legs_unique (legs_congr (fun A hA => (gc A hA).symm) (fun A hA => (ga A hA).symm) hL)
          (legs_general ops.length s hs _ _)

theorem foldl_add_eq_sum {α : Type _} (f : α → Int) (l : List α) (r : Int) :
    l.foldl (fun r a => r + f a) r = r + (l.map f).sum := by
  induction l generalizing r with
  | nil => simp
  | cons a l ih => simp only [List.foldl_cons, List.map_cons, List.sum_cons, ih]; omega

theorem sum_map_le {l : List Nat} {f g : Nat → Int} (h : ∀ A ∈ l, f A ≤ g A) : (l.map f).sum ≤ (l.map g).sum := by
  induction l with
  | nil => simp
  | cons a l ih =>
    simp only [List.map_cons, List.sum_cons]
    have := h a (by simp)
    have := ih (fun A hA => h A (by simp [hA]))
    omega

theorem mapM_fun_ok {α β : Type} [Inhabited β] (f : α → Res β) (l : List α) (h : ∀ a ∈ l, ∃ b, f a = .ok b) :
    ∃ g : α → β, (∀ a ∈ l, f a = .ok (g a)) ∧ l.mapM (m := Except Fault) f = .ok (l.map g) := by
  let g : α → β := fun a => match f a with
    | .ok b => b
    | .error _ => default
  have hg : ∀ a ∈ l, f a = .ok (g a) := by
    intro a ha
    obtain ⟨b, hb'⟩ := h a ha
    simp [g, hb']
  refine ⟨g, hg, ?_⟩
  rw [mapM_ok_iff, List.forall₂_map_right_iff, List.forall₂_same]
  exact hg

theorem intRange_nodup (lo hi : Int) : (intRange lo hi).Nodup := by
  unfold intRange
  rw [List.nodup_map_iff_inj_on List.nodup_range]
  intro x _ y _ h; omega

theorem general_spec {ops : OperatorProduct} {s : Nat} (hs : s < 8)
    (maxc : Int) :
    ∃ L, Wick.elemGeneral maxc ops s = .ok L ∧ L.Nodup ∧ ∀ e, e ∈ L ↔
      ∃ c a : Nat → Int, ∃ k : Int, 1 ≤ k ∧ k ≤ maxc ∧
        (∀ A < ops.length, 0 ≤ c A ∧ c A ≤ (opAt ops A).gm.cre s ∧ 0 ≤ a A ∧ a A ≤ (opAt ops A).gm.ann s) ∧
        ((List.range ops.length).map c).sum = k ∧ ((List.range ops.length).map a).sum = k ∧
        (∃ A B, A < B ∧ B < ops.length ∧ 0 < c A + a A ∧ 0 < c B + a B) ∧
        Legs ops.length s c a e := by
  unfold Wick.elemGeneral
  simp only [foldl_add_eq_sum, Int.zero_add]
  set sc := ((List.range ops.length).map (fun A => (opAt ops A).gm.cre s)).sum with hsc
  set sa := ((List.range ops.length).map (fun A => (opAt ops A).gm.ann s)).sum with hsa
  have hpos : ∀ k ∈ intRange 1 (min (min sc sa) maxc), 1 ≤ ops.length := by
    intro k hk
    rw [mem_intRange] at hk
    by_contra hn
    have h0 : ops.length = 0 := by omega
    have : sc = 0 := by rw [hsc, h0]; simp
    omega
  obtain ⟨g, hg, hm⟩ := mapM_fun_ok (Wick.elemGeneralK ops s) (intRange 1 (min (min sc sa) maxc)) (by
    intro k hk
    obtain ⟨L, hL, _⟩ := generalK_spec (ops := ops) (s := s) hs (mem_intRange.1 hk).1 (hpos k hk)
    exact ⟨L, hL⟩)
  have spec : ∀ k ∈ intRange 1 (min (min sc sa) maxc), (g k).Nodup ∧ ∀ e, e ∈ g k ↔
      ∃ c a : Nat → Int,
        (∀ A < ops.length, 0 ≤ c A ∧ c A ≤ (opAt ops A).gm.cre s ∧ 0 ≤ a A ∧ a A ≤ (opAt ops A).gm.ann s) ∧
        ((List.range ops.length).map c).sum = k ∧ ((List.range ops.length).map a).sum = k ∧
        (∃ A B, A < B ∧ B < ops.length ∧ 0 < c A + a A ∧ 0 < c B + a B) ∧
        Legs ops.length s c a e := by
    intro k hk
    obtain ⟨L, hL, h1, h2⟩ := generalK_spec (ops := ops) (s := s) hs (mem_intRange.1 hk).1 (hpos k hk)
    have : L = g k := by
      have := (hg k hk).symm.trans hL
      injection this with this; exact this.symm
    subst this
    exact ⟨h1, h2⟩
  refine ⟨((intRange 1 (min (min sc sa) maxc)).map g).flatten, by simp only [hm, bind, Except.bind]; rfl, ?_, ?_⟩
  · rw [List.nodup_flatten]
    constructor
    · intro l hl
      obtain ⟨k, hk, rfl⟩ := List.mem_map.1 hl
      exact (spec k hk).1
    · rw [List.pairwise_map]
      refine List.Pairwise.imp_of_mem ?_ (intRange_nodup _ _)
      intro k k' hk hk' hne
      rw [List.disjoint_left]
      intro e he he'
      obtain ⟨c, a, _, hc, _, ⟨A, B, hAB, hB, hA, _⟩, hL⟩ := ((spec k hk).2 e).1 he
      obtain ⟨c', a', _, hc', _, _, hL'⟩ := ((spec k' hk').2 e).1 he'
      apply hne
      rw [← hc, ← hc']
      congr 1
      apply List.map_congr_left
      intro A hA
      exact (legs_counts hL hL' (List.mem_range.1 hA)).1
  · intro e
    rw [List.mem_flatten]
    constructor
    · rintro ⟨l, hl, he⟩
      obtain ⟨k, hk, rfl⟩ := List.mem_map.1 hl
      obtain ⟨c, a, h⟩ := ((spec k hk).2 e).1 he
      rw [mem_intRange] at hk
      exact ⟨c, a, k, hk.1, by omega, h⟩
    · rintro ⟨c, a, k, hk1, hk2, h⟩
      have hk : k ∈ intRange 1 (min (min sc sa) maxc) := by
        rw [mem_intRange]
        have e1 : k ≤ sc := by
          rw [← h.2.1, hsc]
          exact sum_map_le (fun A hA => (h.1 A (List.mem_range.1 hA)).2.1)
        have e2 : k ≤ sa := by
          rw [← h.2.2.1, hsa]
          exact sum_map_le (fun A hA => (h.1 A (List.mem_range.1 hA)).2.2.2)
        omega
      exact ⟨g k, List.mem_map.2 ⟨k, hk, rfl⟩, ((spec k hk).2 e).2 ⟨c, a, h⟩⟩

/-- every space has a type -/
theorem spaceType_ok (o : OSI) {s : Nat} (h : s < o.spaces.length) : ∃ t, o.spaceType s = .ok t := by
  refine ⟨o.spaces[s].spaceType, ?_⟩
  simp [OSI.spaceType, OSI.space, h, bind, Except.bind, pure, Except.pure]

/-- the clause of `IsElementary` for one space -/
def IsElementaryS (o : OSI) (maxCumulant : Int) (ops : OperatorProduct) (s : Nat) (e : EContr) : Prop :=
    ((o.spaceType s = .ok .occupied ∧ ∃ l r, l < r ∧ r < ops.length ∧
        1 ≤ (opAt ops l).gm.cre s ∧ 1 ≤ (opAt ops r).gm.ann s ∧
        Legs ops.length s (fun A => if A = l then 1 else 0) (fun A => if A = r then 1 else 0) e) ∨
     (o.spaceType s = .ok .unoccupied ∧ ∃ l r, l < r ∧ r < ops.length ∧
        1 ≤ (opAt ops l).gm.ann s ∧ 1 ≤ (opAt ops r).gm.cre s ∧
        Legs ops.length s (fun A => if A = r then 1 else 0) (fun A => if A = l then 1 else 0) e) ∨
     (o.spaceType s = .ok .general ∧ ∃ c a : Nat → Int, ∃ k : Int, 1 ≤ k ∧ k ≤ maxCumulant ∧
        (∀ A < ops.length, 0 ≤ c A ∧ c A ≤ (opAt ops A).gm.cre s ∧ 0 ≤ a A ∧ a A ≤ (opAt ops A).gm.ann s) ∧
        ((List.range ops.length).map c).sum = k ∧ ((List.range ops.length).map a).sum = k ∧
        (∃ A B, A < B ∧ B < ops.length ∧ 0 < c A + a A ∧ 0 < c B + a B) ∧
        Legs ops.length s c a e))

theorem elemSpace_spec {o : OSI} {cfg : WickCfg} {ops : OperatorProduct}
    (hv : ∀ p ∈ ops, p.Valid o.spaces.length) {s : Nat} (hs : s < o.spaces.length) (h8 : o.spaces.length ≤ 8) :
    ∃ L, Wick.elemSpace o cfg ops s = .ok L ∧ L.Nodup ∧ ∀ e, e ∈ L ↔ IsElementaryS o cfg.maxCumulant ops s e := by
  obtain ⟨t, ht⟩ := spaceType_ok o hs
  have hs8 : s < 8 := by omega
  unfold Wick.elemSpace IsElementaryS
  rw [ht]
  cases t
  · refine ⟨_, rfl, (occupied_spec hv hs8).1, fun e => ?_⟩
    rw [(occupied_spec hv hs8).2 e]; simp
  · refine ⟨_, rfl, (unoccupied_spec hv hs8).1, fun e => ?_⟩
    rw [(unoccupied_spec hv hs8).2 e]; simp
  · obtain ⟨L, h1, h2, h3⟩ := general_spec hs8 cfg.maxCumulant
    refine ⟨L, h1, h2, fun e => ?_⟩
    rw [h3 e]; simp

/-- an elementary contraction has legs in exactly one space, and touches two operators -/
theorem isElementaryS_touch {o : OSI} {m : Int} {ops : OperatorProduct} {s : Nat} {e : EContr}
    (h : IsElementaryS o m ops s e) :
    ∃ c a : Nat → Int, Legs ops.length s c a e ∧ (∀ A < ops.length, 0 ≤ c A ∧ 0 ≤ a A) ∧
      ∃ A B, A < B ∧ B < ops.length ∧ 0 < c A + a A ∧ 0 < c B + a B := by
  rcases h with ⟨_, l, r, h1, h2, _, _, hL⟩ | ⟨_, l, r, h1, h2, _, _, hL⟩ | ⟨_, c, a, k, _, _, h3, _, _, h4, hL⟩
  · refine ⟨_, _, hL, ?_, l, r, h1, h2, ?_, ?_⟩
    · intro A _; constructor <;> split <;> simp
    · simp; split <;> simp
    · simp; split <;> simp
  · refine ⟨_, _, hL, ?_, l, r, h1, h2, ?_, ?_⟩
    · intro A _; constructor <;> split <;> simp
    · simp; split <;> simp
    · simp; split <;> simp
  · exact ⟨c, a, hL, fun A hA => ⟨(h3 A hA).1, (h3 A hA).2.2.1⟩, h4⟩

theorem elementary_spec {o : OSI} {cfg : WickCfg} {ops : OperatorProduct}
    (hv : ∀ p ∈ ops, p.Valid o.spaces.length) (h8 : o.spaces.length ≤ 8) :
    ∃ L, Wick.elementaryContractions o cfg ops = .ok L ∧ L.Nodup ∧ ∀ e, e ∈ L ↔ IsElementary o cfg.maxCumulant ops e := by
  obtain ⟨g, hg, hm⟩ := mapM_fun_ok (Wick.elemSpace o cfg ops) (List.range o.spaces.length) (by
    intro s hs
    obtain ⟨L, hL, _⟩ := elemSpace_spec (cfg := cfg) hv (List.mem_range.1 hs) h8
    exact ⟨L, hL⟩)
  have spec : ∀ s ∈ List.range o.spaces.length, (g s).Nodup ∧ ∀ e, e ∈ g s ↔ IsElementaryS o cfg.maxCumulant ops s e := by
    intro s hs
    obtain ⟨L, hL, h1, h2⟩ := elemSpace_spec (cfg := cfg) hv (List.mem_range.1 hs) h8
    have : L = g s := by
      have := (hg s hs).symm.trans hL
      injection this with this; exact this.symm
    subst this
    exact ⟨h1, h2⟩
  refine ⟨((List.range o.spaces.length).map g).flatten, ?_, ?_, ?_⟩
  · unfold Wick.elementaryContractions
    simp only [hm, bind, Except.bind]; rfl
  · rw [List.nodup_flatten]
    constructor
    · intro l hl
      obtain ⟨k, hk, rfl⟩ := List.mem_map.1 hl
      exact (spec k hk).1
    · rw [List.pairwise_map]
      refine List.Pairwise.imp_of_mem ?_ List.nodup_range
      intro s s' hs hs' hne
      rw [List.disjoint_left]
      intro e he he'
      obtain ⟨c, a, hL, hnn, A, B, hAB, hB, hA, _⟩ := isElementaryS_touch (((spec s hs).2 e).1 he)
      obtain ⟨c', a', hL', _⟩ := isElementaryS_touch (((spec s' hs').2 e).1 he')
      exact hne (legs_space hL hL' (A := A) (by omega) (by omega))
  · intro e
    rw [List.mem_flatten]
    constructor
    · rintro ⟨l, hl, he⟩
      obtain ⟨s, hs, rfl⟩ := List.mem_map.1 hl
      exact ⟨s, List.mem_range.1 hs, ((spec s hs).2 e).1 he⟩
    · rintro ⟨s, hs, h⟩
      exact ⟨g s, List.mem_map.2 ⟨s, List.mem_range.2 hs, rfl⟩, ((spec s (List.mem_range.2 hs)).2 e).2 h⟩

end Wicked
