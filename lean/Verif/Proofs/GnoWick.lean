import Verif.Proofs.Gno
/-! The generalised Wick theorem for lists, antisymmetry of generalised normal products, expectation values -/
namespace Wicked
namespace Gno
section
variable {α M R B : Type} [DecidableEq α] [CommRing R] [Ring B] [Algebra R B]

theorem filter_split {c : α → Nat} {L : List α} (hc : L.Pairwise (fun a b => c a ≤ c b)) (J : Finset α) (n : Nat) :
    partOf L (below c J (n + 1)) = partOf L (below c J n) ++ partOf L (seg c J n) := by
  induction L with
  | nil => rfl
  | cons x L ih =>
    rw [List.pairwise_cons] at hc
    have ih := ih hc.2
    unfold partOf at ih ⊢
    simp only [below, seg, Finset.mem_filter] at ih ⊢
    rw [List.filter_cons, List.filter_cons, List.filter_cons]
    by_cases hx : x ∈ J
    · rcases _root_.lt_trichotomy (c x) n with h | h | h
      · simp only [hx, h, true_and, show c x < n + 1 by omega, decide_true, if_true, show ¬ c x = n by omega, decide_false]
        rw [ih]; rfl
      · have hnil : L.filter (fun y => decide (y ∈ J ∧ c y < n)) = [] := by
          rw [List.filter_eq_nil_iff]
          intro y hy
          have := hc.1 y hy
          simp only [decide_eq_true_eq, not_and]
          intro _; omega
        rw [hnil] at ih ⊢
        simp only [hx, h, true_and, show n < n + 1 by omega, decide_true, if_true, show ¬ n < n by omega, decide_false]
        rw [ih]; rfl
      · simp only [hx, true_and, show ¬ c x < n + 1 by omega, decide_true, if_true, show ¬ c x < n by omega, show ¬ c x = n by omega, decide_false]
        rw [ih]; rfl
    · simp only [hx, false_and, decide_false]
      rw [ih]; rfl

theorem part_prod {c : α → Nat} {L : List α} (hc : L.Pairwise (fun a b => c a ≤ c b)) (op : α → B) (J : Finset α) (n : Nat) :
    ((partOf L (below c J n)).map op).prod = ((List.range n).map (fun j => ((partOf L (seg c J j)).map op).prod)).prod := by
  induction n with
  | zero =>
    have e : below c J 0 = ∅ := by ext x; simp [below]
    rw [e]; simp [partOf]
  | succ n ih => rw [filter_split hc, List.map_append, List.prod_append, ih, List.range_succ, List.map_append, List.prod_append, List.map_singleton, List.prod_singleton]

open Classical in
/-- generalised Wick theorem: the product of the normal products of the factors of a list -/
theorem wick_list (κ : List M → R) (hκ : ∀ l, ¬ Even l.length → κ l = 0) (N : List M → B) (op : M → B) (hN : ∀ l, (l.map op).prod = conSum κ N l)
    (f : α → M) {L : List α} (hn : L.Nodup) {c : α → Nat} (hc : L.Pairwise (fun a b => c a ≤ c b)) {n : Nat} (hcn : ∀ x ∈ L, c x < n) :
    ((List.range n).map (fun j => N ((partOf L (seg c L.toFinset j)).map f))).prod =
      ∑ S ∈ (bsets L.toFinset).filter (fun S => ∀ b ∈ S, ¬ Mono c b), conTerm κ N f L S := by
  have hkc : ∀ b : Finset α, ¬ Even b.card → (if b ⊆ L.toFinset then kv κ f L b else 0) = 0 := by
    intro b hb
    split
    · rename_i h
      apply hκ
      rw [List.length_map, partOf_length hn h]; exact hb
    · rfl
  have hcoef : ∀ J ⊆ L.toFinset, ∀ S ∈ bsets J, coef (posI L) (kv κ f L) S J = coef (posI L) (fun b => if b ⊆ L.toFinset then kv κ f L b else 0) S J := by
    intro J hJ S hS
    apply coefL_congr (fun b hb => (mem_bsets.1 hS).1 b (Finset.mem_toList.1 hb)) (bsets_pairwise hS) (fun _ _ _ _ => Iff.rfl)
    intro b hb
    rw [if_pos (((mem_bsets.1 hS).1 b (Finset.mem_toList.1 hb)).trans hJ)]
  have main := cross_sum (r := posI L) (c := c) (n := n) (p := fun J => ((partOf L J).map (fun x => op (f x))).prod)
    (g := fun J => N ((partOf L J).map f)) hkc L.toFinset (fun x hx => hcn x (List.mem_toFinset.1 hx))
    (fun x hx y _ h => posI_inj (List.mem_toFinset.1 hx) h)
    (by
      intro x hx y hy hxy
      rw [List.mem_toFinset] at hx hy
      have h12 := (posI_sorted hn).and hc
      rw [List.pairwise_iff_getElem] at h12
      obtain ⟨i, hi, rfl⟩ := List.mem_iff_getElem.1 hx
      obtain ⟨j, hj, rfl⟩ := List.mem_iff_getElem.1 hy
      rcases _root_.lt_trichotomy i j with h | h | h
      · exact (h12 i j hi hj h).1
      · subst h; omega
      · have := (h12 j i hj hi h).2; omega)
    (by
      intro J hJ
      beta_reduce
      have e := hN ((partOf L J).map f)
      rw [List.map_map] at e
      refine e.trans ?_
      rw [conSum_part κ hκ N f hn hJ]
      exact Finset.sum_congr rfl (fun S hS => by rw [hcoef J hJ S hS]))
    (by
      intro J hJ
      beta_reduce
      have : below c J n = J := Finset.filter_true_of_mem (fun x hx => hcn x (List.mem_toFinset.1 (hJ hx)))
      rw [← part_prod hc, this])
  rw [main]
  apply Finset.sum_congr rfl
  intro S hS
  have hS := (Finset.mem_filter.1 hS).1
  rw [conTerm_eq κ N f hn hS, hcoef _ (Finset.Subset.refl _) S hS]

end
/-! ### exchanging two neighbours -/
section
variable {α M R B : Type} [DecidableEq α] [CommRing R] [AddCommGroup B] [Module R B]

omit [DecidableEq α] in
theorem sgR_swap {r : α → Int} {u v : α} (h : r u ≠ r v) (p q : List α) : sgR r (p ++ u :: v :: q) = - sgR r (p ++ v :: u :: q) := by
  have hp : (u :: v :: q).Perm (v :: u :: q) := List.Perm.swap v u q
  rw [sgR_app, sgR_app, crossSg_perm r (List.Perm.refl p) hp]
  have : sgR r (u :: v :: q) = - sgR r (v :: u :: q) := by
    rw [sgR_eq, sgR_eq]
    exact permutationSign_swap _ _ _ h
  rw [this]; ring

/-- two lists that differ by the exchange of two neighbours -/
structure Swap (L L' : List α) (u v : α) : Prop where
  nodup : L.Nodup
  ex : ∃ pre post, L = pre ++ u :: v :: post ∧ L' = pre ++ v :: u :: post

namespace Swap
variable {L L' : List α} {u v : α}

omit [DecidableEq α] in
theorem perm (h : Swap L L' u v) : L.Perm L' := by
  obtain ⟨pre, post, rfl, rfl⟩ := h.ex
  exact (List.Perm.swap v u post).append_left pre

omit [DecidableEq α] in
theorem nodup' (h : Swap L L' u v) : L'.Nodup := h.perm.nodup_iff.1 h.nodup

omit [DecidableEq α] in
theorem symm (h : Swap L L' u v) : Swap L' L v u := by
  refine ⟨h.nodup', ?_⟩
  obtain ⟨pre, post, h1, h2⟩ := h.ex
  exact ⟨pre, post, h2, h1⟩

omit [DecidableEq α] in
theorem ne (h : Swap L L' u v) : u ≠ v := by
  have hn := h.nodup
  obtain ⟨pre, post, rfl, rfl⟩ := h.ex
  rw [List.nodup_append] at hn
  have := (List.nodup_cons.1 hn.2.1).1
  rintro rfl
  simp at this

omit [DecidableEq α] in
theorem mem_left (h : Swap L L' u v) : u ∈ L := by
  obtain ⟨pre, post, rfl, rfl⟩ := h.ex; simp
omit [DecidableEq α] in
theorem mem_right (h : Swap L L' u v) : v ∈ L := by
  obtain ⟨pre, post, rfl, rfl⟩ := h.ex; simp

theorem toFinset (h : Swap L L' u v) : L.toFinset = L'.toFinset := by
  ext x; rw [List.mem_toFinset, List.mem_toFinset, h.perm.mem_iff]

theorem part_eq (h : Swap L L' u v) {b : Finset α} (hb : ¬ (u ∈ b ∧ v ∈ b)) : partOf L b = partOf L' b := by
  obtain ⟨pre, post, rfl, rfl⟩ := h.ex
  unfold partOf
  rw [List.filter_append, List.filter_append]
  congr 1
  rw [List.filter_cons, List.filter_cons, List.filter_cons, List.filter_cons]
  by_cases hu : u ∈ b
  · have hv : v ∉ b := fun hv => hb ⟨hu, hv⟩
    simp [hu, hv]
  · simp [hu]

theorem part_swap (h : Swap L L' u v) {b : Finset α} (hu : u ∈ b) (hv : v ∈ b) : Swap (partOf L b) (partOf L' b) u v := by
  have hn := h.nodup
  obtain ⟨pre, post, rfl, rfl⟩ := h.ex
  refine ⟨partOf_nodup hn b, partOf pre b, partOf post b, ?_, ?_⟩
  · unfold partOf
    rw [List.filter_append, List.filter_cons, List.filter_cons]
    simp [hu, hv]
  · unfold partOf
    rw [List.filter_append, List.filter_cons, List.filter_cons]
    simp [hu, hv]

theorem pos_ne (h : Swap L L' u v) : posI L u ≠ posI L v := fun he => h.ne (posI_inj h.mem_left he)

/-- the same listing has opposite signs with respect to the two lists -/
theorem sign_neg (h : Swap L L' u v) {P : List α} (hP : P.Perm L) : sgR (posI L') P = - sgR (posI L) P := by
  have hn := h.nodup
  have key := sgR_perm_mul (r := posI L) (r' := posI L') hP (fun a ha b hb e => posI_inj (hP.mem_iff.1 ha) e)
    (fun a ha b hb e => posI_inj (h.perm.mem_iff.1 (hP.mem_iff.1 ha)) e)
  rw [sgR_sorted ((posI_sorted hn).imp (fun h => h.le)), one_mul] at key
  have h2 : sgR (posI L') L = -1 := by
    have hs := h.symm
    have hne := hs.pos_ne
    have h1 : sgR (posI L') L' = 1 := sgR_sorted ((posI_sorted h.nodup').imp (fun h => h.le))
    obtain ⟨pre, post, e1, e2⟩ := h.ex
    have := sgR_swap (r := posI L') hne.symm pre post
    rw [← e1, ← e2, h1] at this
    exact this
  rw [h2] at key
  have := sgR_sq (posI L) P
  calc sgR (posI L') P = sgR (posI L) P * sgR (posI L) P * sgR (posI L') P := by rw [this, one_mul]
    _ = sgR (posI L) P * (sgR (posI L) P * sgR (posI L') P) := by ring
    _ = - sgR (posI L) P := by rw [key]; ring

/-- exchanging the two neighbours in the listing as well leaves the sign as it is -/
theorem sign_same (h : Swap L L' u v) {P P' : List α} (hP : P.Perm L) (hs : Swap P P' u v) : sgR (posI L') P' = sgR (posI L) P := by
  have h1 := h.sign_neg hP
  obtain ⟨pre, post, e1, e2⟩ := hs.ex
  have h2 := sgR_swap (r := posI L') h.symm.pos_ne.symm pre post
  rw [← e1, ← e2, h1] at h2
  exact (neg_inj.1 h2).symm
end Swap

theorem listing_perm {L : List α} (hn : L.Nodup) {S : Finset (Finset α)} (hS : S ∈ bsets L.toFinset) : (S.toList.flatMap (partOf L) ++ restOf L S).Perm L := by
  obtain ⟨h1, h2, h3⟩ := mem_bsets.1 hS
  rw [List.perm_ext_iff_of_nodup ?_ hn]
  · intro x
    rw [List.mem_append, List.mem_flatMap, restOf_eq, mem_partOf, mem_rest]
    constructor
    · rintro (⟨b, _, hx⟩ | ⟨hx, _⟩)
      · exact (mem_partOf.1 hx).1
      · exact hx
    · intro hx
      by_cases hc : ∃ c ∈ S, x ∈ c
      · obtain ⟨c, hc, hxc⟩ := hc
        exact Or.inl ⟨c, Finset.mem_toList.2 hc, mem_partOf.2 ⟨hx, hxc⟩⟩
      · push Not at hc
        exact Or.inr ⟨hx, List.mem_toFinset.2 hx, hc⟩
  · rw [List.nodup_append]
    refine ⟨?_, hn.filter _, ?_⟩
    · rw [List.nodup_flatMap]
      refine ⟨fun c _ => partOf_nodup hn c, ?_⟩
      exact (bsets_pairwise hS).imp (fun h x hx hx' => Finset.disjoint_left.1 h (mem_partOf.1 hx).2 (mem_partOf.1 hx').2)
    · rintro x hx y hy rfl
      obtain ⟨c, hc, hx⟩ := List.mem_flatMap.1 hx
      rw [restOf_eq] at hy
      exact (mem_rest.1 (mem_partOf.1 hy).2).2 c (Finset.mem_toList.1 hc) (mem_partOf.1 hx).2

/-- a set of contractions that does not contract the two neighbours with each other -/
theorem term_swap {L L' : List α} {u v : α} (h : Swap L L' u v) {κ : List M → R} {N : List M → B} {f : α → M} {S : Finset (Finset α)} (hS : S ∈ bsets L.toFinset)
    (hb : ∀ b ∈ S, u ∈ b → v ∈ b → κ ((partOf L b).map f) = - κ ((partOf L' b).map f))
    (hN : (∀ b ∈ S, u ∉ b) → (∀ b ∈ S, v ∉ b) → N ((restOf L S).map f) = - N ((restOf L' S).map f)) :
    conTerm κ N f L' S = - conTerm κ N f L S := by
  have hP := listing_perm h.nodup hS
  obtain ⟨h1, h2, h3⟩ := mem_bsets.1 hS
  unfold conTerm
  rw [listSign_eq, listSign_eq]
  by_cases hA : ∃ b ∈ S, u ∈ b ∧ v ∈ b
  · obtain ⟨b, hbS, hu, hv⟩ := hA
    have hrest : restOf L S = restOf L' S := by
      rw [restOf_eq, restOf_eq, h.toFinset]
      exact h.part_eq (fun hh => (mem_rest.1 hh.1).2 b hbS hu)
    have hother : ∀ c ∈ S, c ≠ b → partOf L c = partOf L' c := fun c hc hne =>
      h.part_eq (fun hh => Finset.disjoint_left.1 (h3 c hc b hbS hne) hh.1 hu)
    have hsw : Swap (S.toList.flatMap (partOf L) ++ restOf L S) (S.toList.flatMap (partOf L') ++ restOf L' S) u v := by
      refine ⟨hP.symm.nodup_iff.1 h.nodup, ?_⟩
      obtain ⟨s1, s2, hs⟩ := List.append_of_mem (Finset.mem_toList.2 hbS)
      have hnd : (s1 ++ b :: s2).Nodup := by rw [← hs]; exact Finset.nodup_toList S
      have hmem : ∀ c, c ∈ s1 ∨ c ∈ s2 → c ∈ S ∧ c ≠ b := by
        intro c hc
        have hcS : c ∈ S := by
          rw [← Finset.mem_toList, hs]
          rcases hc with hc | hc <;> simp [hc]
        refine ⟨hcS, ?_⟩
        rintro rfl
        rw [List.nodup_append] at hnd
        rcases hc with hc | hc
        · exact hnd.2.2 c hc c (by simp) rfl
        · exact (List.nodup_cons.1 hnd.2.1).1 hc
      have e1 : s1.flatMap (partOf L') = s1.flatMap (partOf L) :=
        List.flatMap_congr (fun c hc => (hother c (hmem c (Or.inl hc)).1 (hmem c (Or.inl hc)).2).symm)
      have e2 : s2.flatMap (partOf L') = s2.flatMap (partOf L) :=
        List.flatMap_congr (fun c hc => (hother c (hmem c (Or.inr hc)).1 (hmem c (Or.inr hc)).2).symm)
      obtain ⟨p, q, hp, hq⟩ := (h.part_swap hu hv).ex
      refine ⟨s1.flatMap (partOf L) ++ p, q ++ s2.flatMap (partOf L) ++ restOf L S, ?_, ?_⟩
      · rw [hs, List.flatMap_append, List.flatMap_cons, hp]; simp
      · rw [hs, List.flatMap_append, List.flatMap_cons, hq, e1, e2, hrest]; simp
    rw [h.sign_same hP hsw, ← hrest, ← neg_smul]
    congr 1
    rw [← Finset.mul_prod_erase _ _ hbS, ← Finset.mul_prod_erase S (fun c => κ ((partOf L c).map f)) hbS, hb b hbS hu hv]
    have : ∏ c ∈ S.erase b, κ ((partOf L' c).map f) = ∏ c ∈ S.erase b, κ ((partOf L c).map f) :=
      Finset.prod_congr rfl (fun c hc => by rw [hother c (Finset.mem_erase.1 hc).2 (Finset.mem_erase.1 hc).1])
    rw [this]; ring
  · push Not at hA
    have hpart : ∀ c ∈ S, partOf L' c = partOf L c := fun c hc => (h.part_eq (fun hh => hA c hc hh.1 hh.2)).symm
    have hprod : ∏ c ∈ S, κ ((partOf L' c).map f) = ∏ c ∈ S, κ ((partOf L c).map f) := Finset.prod_congr rfl (fun c hc => by rw [hpart c hc])
    have hflat : S.toList.flatMap (partOf L') = S.toList.flatMap (partOf L) := List.flatMap_congr (fun c hc => hpart c (Finset.mem_toList.1 hc))
    rw [hprod]
    by_cases hB : (∀ b ∈ S, u ∉ b) ∧ (∀ b ∈ S, v ∉ b)
    · have hsw : Swap (S.toList.flatMap (partOf L) ++ restOf L S) (S.toList.flatMap (partOf L') ++ restOf L' S) u v := by
        refine ⟨hP.symm.nodup_iff.1 h.nodup, ?_⟩
        have hr : Swap (restOf L S) (restOf L' S) u v := by
          rw [restOf_eq, restOf_eq, ← h.toFinset]
          exact h.part_swap (mem_rest.2 ⟨List.mem_toFinset.2 h.mem_left, hB.1⟩) (mem_rest.2 ⟨List.mem_toFinset.2 h.mem_right, hB.2⟩)
        obtain ⟨p, q, hp, hq⟩ := hr.ex
        refine ⟨S.toList.flatMap (partOf L) ++ p, q, ?_, ?_⟩
        · rw [hp]; simp
        · rw [hq, hflat]; simp
      rw [h.sign_same hP hsw, hN hB.1 hB.2, smul_neg, neg_neg]
    · have hrest : restOf L' S = restOf L S := by
        rw [restOf_eq, restOf_eq, ← h.toFinset]
        refine (h.part_eq (fun hh => hB ?_)).symm
        exact ⟨(mem_rest.1 hh.1).2, (mem_rest.1 hh.2).2⟩
      rw [hflat, hrest, h.sign_neg hP, ← neg_smul]
      congr 1
      push_cast; ring

omit [DecidableEq α] in
theorem swap_adj {L L' : List α} {u v : α} (h : Swap L L' u v) [DecidableEq α] {y : α} (hy : y ∈ L) (hu : y ≠ u) (hv : y ≠ v) : posI L y < posI L u ↔ posI L y < posI L v := by
  have hs := posI_sorted h.nodup
  obtain ⟨pre, post, rfl, rfl⟩ := h.ex
  rw [List.pairwise_append] at hs
  obtain ⟨_, h2, h3⟩ := hs
  rw [List.mem_append] at hy
  rcases hy with hy | hy
  · exact ⟨fun _ => h3 y hy v (by simp), fun _ => h3 y hy u (by simp)⟩
  · have hy : y ∈ post := by simpa [hu, hv] using hy
    rw [List.pairwise_cons, List.pairwise_cons] at h2
    have a := h2.1 y (by simp [hy])
    have b := h2.2.1 y hy
    constructor <;> intro hh <;> omega

open Classical in
/-- the sets that contract the two neighbours with each other -/
theorem sum_pair {L L' : List α} {u v : α} (h : Swap L L' u v) {κ : List M → R} (hκ : ∀ l, ¬ Even l.length → κ l = 0) (N : List M → B) (f : α → M) :
    ∑ S ∈ (bsets L.toFinset).filter (fun S => {u, v} ∈ S), conTerm κ N f L S =
      κ [f u, f v] • conSum κ N ((partOf L (L.toFinset \ {u, v})).map f) := by
  have hsub : ({u, v} : Finset α) ⊆ L.toFinset := by
    intro x hx
    rw [List.mem_toFinset]
    rcases Finset.mem_insert.1 hx with rfl | hx
    · exact h.mem_left
    · rw [Finset.mem_singleton] at hx; subst hx; exact h.mem_right
  rw [conSum_part κ hκ N f h.nodup Finset.sdiff_subset, Finset.smul_sum]
  have hpq : kv κ f L {u, v} = κ [f u, f v] := by
    unfold kv
    have : partOf L {u, v} = [u, v] := by
      have hn := h.nodup
      obtain ⟨pre, post, rfl, rfl⟩ := h.ex
      rw [List.nodup_append] at hn
      obtain ⟨_, hn2, hn3⟩ := hn
      unfold partOf
      rw [List.filter_append, List.filter_eq_nil_iff.2 ?_, List.nil_append, List.filter_cons_of_pos (by simp), List.filter_cons_of_pos (by simp), List.filter_eq_nil_iff.2 ?_]
      · intro x hx
        rw [List.nodup_cons, List.nodup_cons] at hn2
        simp only [Finset.mem_insert, Finset.mem_singleton, decide_eq_true_eq]
        rintro (rfl | rfl)
        · exact hn2.1 (by simp [hx])
        · exact hn2.2.1 hx
      · intro x hx
        simp only [Finset.mem_insert, Finset.mem_singleton, decide_eq_true_eq]
        rintro (rfl | rfl)
        · exact hn3 x hx x (by simp) rfl
        · exact hn3 x hx x (by simp) rfl
    rw [this]; rfl
  symm
  refine Finset.sum_bij' (fun S _ => insert {u, v} S) (fun S _ => S.erase {u, v}) ?_ ?_ ?_ ?_ ?_
  · intro S hS
    obtain ⟨h1, h2, h3⟩ := mem_bsets.1 hS
    have hd : ∀ b ∈ S, Disjoint {u, v} b := fun b hb => Finset.disjoint_left.2 (fun x hx hx' => (Finset.mem_sdiff.1 (h1 b hb hx')).2 hx)
    refine Finset.mem_filter.2 ⟨mem_bsets.2 ⟨?_, ?_, ?_⟩, Finset.mem_insert_self _ _⟩
    · intro b hb
      rcases Finset.mem_insert.1 hb with rfl | hb
      · exact hsub
      · exact (h1 b hb).trans Finset.sdiff_subset
    · intro b hb
      rcases Finset.mem_insert.1 hb with rfl | hb
      · exact ⟨u, by simp⟩
      · exact h2 b hb
    · intro b hb b' hb' hne
      rcases Finset.mem_insert.1 hb with rfl | hb <;> rcases Finset.mem_insert.1 hb' with rfl | hb'
      · exact absurd rfl hne
      · exact hd b' hb'
      · exact (hd b hb).symm
      · exact h3 b hb b' hb' hne
  · intro S hS
    obtain ⟨hS, huv⟩ := Finset.mem_filter.1 hS
    obtain ⟨h1, h2, h3⟩ := mem_bsets.1 hS
    refine mem_bsets.2 ⟨?_, ?_, ?_⟩
    · intro b hb x hx
      obtain ⟨hne, hb⟩ := Finset.mem_erase.1 hb
      exact Finset.mem_sdiff.2 ⟨h1 b hb hx, fun hx' => Finset.disjoint_left.1 (h3 b hb _ huv hne) hx hx'⟩
    · exact fun b hb => h2 b (Finset.mem_erase.1 hb).2
    · exact fun b hb b' hb' => h3 b (Finset.mem_erase.1 hb).2 b' (Finset.mem_erase.1 hb').2
  · intro S hS
    apply Finset.erase_insert
    intro hc
    have := (mem_bsets.1 hS).1 _ hc (show u ∈ ({u, v} : Finset α) by simp)
    simp at this
  · intro S hS
    exact Finset.insert_erase (Finset.mem_filter.1 hS).2
  · intro S hS
    obtain ⟨h1, h2, h3⟩ := mem_bsets.1 hS
    have hd : ∀ b ∈ S, Disjoint {u, v} b := fun b hb => Finset.disjoint_left.2 (fun x hx hx' => (Finset.mem_sdiff.1 (h1 b hb hx')).2 hx)
    have hmem : insert {u, v} S ∈ bsets L.toFinset := by
      refine mem_bsets.2 ⟨?_, ?_, ?_⟩
      · intro b hb
        rcases Finset.mem_insert.1 hb with rfl | hb
        · exact hsub
        · exact (h1 b hb).trans Finset.sdiff_subset
      · intro b hb
        rcases Finset.mem_insert.1 hb with rfl | hb
        · exact ⟨u, by simp⟩
        · exact h2 b hb
      · intro b hb b' hb' hne
        rcases Finset.mem_insert.1 hb with rfl | hb <;> rcases Finset.mem_insert.1 hb' with rfl | hb'
        · exact absurd rfl hne
        · exact hd b' hb'
        · exact (hd b hb).symm
        · exact h3 b hb b' hb' hne
    have hnot : {u, v} ∉ S := fun hc => by
      have := h1 _ hc (show u ∈ ({u, v} : Finset α) by simp)
      simp at this
    have hrest : rest L.toFinset (insert {u, v} S) = rest (L.toFinset \ {u, v}) S := by
      ext x
      simp only [mem_rest, Finset.mem_sdiff, Finset.mem_insert, forall_eq_or_imp]
      tauto
    rw [conTerm_eq κ N f h.nodup hmem, hrest, smul_smul]
    congr 1
    unfold coef
    have hp : (insert {u, v} S).toList.Perm ({u, v} :: S.toList) := Finset.toList_insert hnot
    have hsg : sg (posI L) {u, v} (L.toFinset \ {u, v}) = 1 := by
      unfold sg
      rw [Finset.prod_pair h.ne, ← Finset.prod_mul_distrib]
      apply Finset.prod_eq_one
      intro y hy
      rw [Finset.mem_sdiff, List.mem_toFinset] at hy
      have := swap_adj h hy.1 (fun e => hy.2 (by simp [e])) (fun e => hy.2 (by simp [e]))
      simp only [this]
      split <;> norm_num
    rw [coefL_perm hp (fun b hb => (mem_bsets.1 hmem).1 b (Finset.mem_toList.1 hb)) (bsets_pairwise hmem) ?_ ?_, coefL, hsg, hpq]
    · simp
    · intro b hb hne
      apply hκ
      rw [List.length_map, partOf_length h.nodup ((mem_bsets.1 hmem).1 b (Finset.mem_toList.1 hb))]
      exact hne
    · intro x hx y _ he
      exact posI_inj (List.mem_toFinset.1 hx) he
end

end Gno
end Wicked
