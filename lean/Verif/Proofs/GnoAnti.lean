import Verif.Proofs.GnoWick
/-! Generalised normal products and cumulants are antisymmetric -/
namespace Wicked
namespace Gno
section
variable {α M R B : Type} [DecidableEq α] [CommRing R] [AddCommGroup B] [Module R B]

theorem part_rest {L L' : List α} {u v : α} (h : Swap L L' u v) {pre post : List α} (e : L = pre ++ u :: v :: post) : partOf L (L.toFinset \ {u, v}) = pre ++ post := by
  have hn := h.nodup
  subst e
  rw [List.nodup_append] at hn
  obtain ⟨_, hn2, hn3⟩ := hn
  rw [List.nodup_cons, List.nodup_cons] at hn2
  unfold partOf
  rw [List.filter_append]
  congr 1
  · rw [List.filter_eq_self]
    intro x hx
    have h1 : x ≠ u := fun he => hn3 x hx u (by simp) he
    have h2 : x ≠ v := fun he => hn3 x hx v (by simp) he
    simp [hx, h1, h2]
  · rw [List.filter_cons_of_neg (by simp), List.filter_cons_of_neg (by simp), List.filter_eq_self]
    intro x hx
    have h1 : x ≠ u := fun he => hn2.1 (by simp [← he, hx])
    have h2 : x ≠ v := fun he => hn2.2.1 (he ▸ hx)
    simp [hx, h1, h2]

/-- a larger block -/
theorem part_big {L L' : List α} {u v : α} (h : Swap L L' u v) {b : Finset α} (hb : b ⊆ L.toFinset) (hu : u ∈ b) (hv : v ∈ b) (hne : b ≠ {u, v}) :
    ∃ p q, p ++ q ≠ [] ∧ partOf L b = p ++ u :: v :: q ∧ partOf L' b = p ++ v :: u :: q := by
  obtain ⟨p, q, h1, h2⟩ := (h.part_swap hu hv).ex
  refine ⟨p, q, fun he => ?_, h1, h2⟩
  obtain ⟨rfl, rfl⟩ := List.append_eq_nil_iff.1 he
  apply hne
  rw [← partOf_toFinset hb, h1]
  ext x; simp

/-- labels for the operators of a list with two neighbours -/
theorem labels [DecidableEq M] (pre post : List M) (x y : M) : ∃ (L L' : List (M × Nat)) (u v : M × Nat) (p q : List (M × Nat)), Swap L L' u v ∧
    L = p ++ u :: v :: q ∧ L' = p ++ v :: u :: q ∧ p.map Prod.fst = pre ∧ q.map Prod.fst = post ∧ u.1 = x ∧ v.1 = y := by
  refine ⟨(pre ++ x :: y :: post).zipIdx, pre.zipIdx ++ (y, pre.length + 1) :: (x, pre.length) :: post.zipIdx (pre.length + 2), (x, pre.length), (y, pre.length + 1),
    pre.zipIdx, post.zipIdx (pre.length + 2), ?_, ?_, rfl, ?_, ?_, rfl, rfl⟩
  · refine ⟨?_, pre.zipIdx, post.zipIdx (pre.length + 2), ?_, rfl⟩
    · apply List.Nodup.of_map Prod.snd
      rw [List.zipIdx_map_snd]
      exact List.nodup_range'
    · rw [List.zipIdx_append]
      simp [List.zipIdx_cons]
  · rw [List.zipIdx_append]
    simp [List.zipIdx_cons]
  · exact List.zipIdx_map_fst 0 pre
  · exact List.zipIdx_map_fst _ post

open Classical in
/-- Exchanging two neighbours in the sum over all contractions, if all nonempty sets but one (`S₀`) change sign. -/
theorem sum_swap {L L' : List α} {u v : α} (h : Swap L L' u v) {κ : List M → R} (hκ : ∀ l, ¬ Even l.length → κ l = 0) (N : List M → B) (f : α → M)
    (S₀ : Finset (Finset α)) (hS₀ : S₀ ∈ bsets L.toFinset) (h₀ : {u, v} ∉ S₀)
    (hflip : ∀ S ∈ bsets L.toFinset, {u, v} ∉ S → S ≠ S₀ → conTerm κ N f L' S = - conTerm κ N f L S) :
    conSum κ N (L.map f) + conSum κ N (L'.map f) = conTerm κ N f L S₀ + conTerm κ N f L' S₀ +
      (κ [f u, f v] + κ [f v, f u]) • conSum κ N ((partOf L (L.toFinset \ {u, v})).map f) := by
  have hpart : partOf L (L.toFinset \ {u, v}) = partOf L' (L'.toFinset \ {v, u}) := by
    obtain ⟨p, q, e1, e2⟩ := h.ex
    rw [part_rest h e1, part_rest h.symm e2]
  have hs := h.symm
  rw [conSum_eq κ hκ N f h.nodup, conSum_eq κ hκ N f h.nodup', ← Finset.sum_filter_add_sum_filter_not (bsets L.toFinset) (fun S => {u, v} ∈ S),
    ← Finset.sum_filter_add_sum_filter_not (bsets L'.toFinset) (fun S => {v, u} ∈ S), sum_pair h hκ N f, sum_pair hs hκ N f, ← hpart, add_smul]
  have e : (bsets L'.toFinset).filter (fun S => ¬ {v, u} ∈ S) = (bsets L.toFinset).filter (fun S => ¬ {u, v} ∈ S) := by
    rw [h.toFinset, Finset.pair_comm]
  rw [e]
  have hmem : S₀ ∈ (bsets L.toFinset).filter (fun S => ¬ {u, v} ∈ S) := Finset.mem_filter.2 ⟨hS₀, h₀⟩
  have key : ∑ S ∈ (bsets L.toFinset).filter (fun S => ¬ {u, v} ∈ S), conTerm κ N f L S + ∑ S ∈ (bsets L.toFinset).filter (fun S => ¬ {u, v} ∈ S), conTerm κ N f L' S =
      conTerm κ N f L S₀ + conTerm κ N f L' S₀ := by
    rw [← Finset.sum_add_distrib]
    apply Finset.sum_eq_single_of_mem S₀ hmem
    intro S hS hne
    obtain ⟨hS, hn⟩ := Finset.mem_filter.1 hS
    rw [hflip S hS hn hne, add_neg_cancel]
  rw [← key]
  abel

end

section
variable {M R B : Type} [DecidableEq M] [CommRing R] [AddCommGroup B] [Module R B]

theorem conTerm_empty {α : Type} [DecidableEq α] (κ : List M → R) (N : List M → B) (f : α → M) {L : List α} (hn : L.Nodup) : conTerm κ N f L ∅ = N (L.map f) := by
  rw [conTerm_eq κ N f hn (empty_mem_bsets _), coef_empty, one_smul, rest_empty]
  congr 2
  unfold partOf
  rw [List.filter_eq_self]
  intro x hx; simp [hx]

/-- generalised normal products are antisymmetric -/
theorem normal_antisymm {κ : List M → R} (hκ : ∀ l, ¬ Even l.length → κ l = 0) {P N : List M → B} (hP : ∀ l, P l = conSum κ N l) {d : M → M → R}
    (hcar : ∀ pre x y post, P (pre ++ x :: y :: post) + P (pre ++ y :: x :: post) = d x y • P (pre ++ post)) (hpair : ∀ x y, κ [x, y] + κ [y, x] = d x y)
    (hanti : ∀ pre x y post, pre ++ post ≠ [] → κ (pre ++ x :: y :: post) = - κ (pre ++ y :: x :: post)) : AntisymmFun N := by
  have main : ∀ n : Nat, ∀ pre x y post, (pre ++ x :: y :: post).length = n → N (pre ++ x :: y :: post) = - N (pre ++ y :: x :: post) := by
    intro n
    induction n using Nat.strong_induction_on with
    | _ n IH =>
      intro pre x y post hlen
      obtain ⟨L, L', u, v, p, q, h, e1, e2, hp, hq, hu, hv⟩ := labels pre post x y
      have m1 : L.map Prod.fst = pre ++ x :: y :: post := by rw [e1]; simp [hp, hq, hu, hv]
      have m2 : L'.map Prod.fst = pre ++ y :: x :: post := by rw [e2]; simp [hp, hq, hu, hv]
      have hflip : ∀ S ∈ bsets L.toFinset, {u, v} ∉ S → S ≠ ∅ → conTerm κ N Prod.fst L' S = - conTerm κ N Prod.fst L S := by
        intro S hS huv hne
        apply term_swap h hS
        · intro b hb hub hvb
          obtain ⟨p', q', hpq, h1, h2⟩ := part_big h ((mem_bsets.1 hS).1 b hb) hub hvb (fun e => huv (e ▸ hb))
          rw [h1, h2, List.map_append, List.map_append, List.map_cons, List.map_cons, List.map_cons, List.map_cons]
          apply hanti
          rw [← List.map_append]
          simpa using hpq
        · intro hu' hv'
          have hr : Swap (restOf L S) (restOf L' S) u v := by
            rw [restOf_eq, restOf_eq, ← h.toFinset]
            exact h.part_swap (mem_rest.2 ⟨List.mem_toFinset.2 h.mem_left, hu'⟩) (mem_rest.2 ⟨List.mem_toFinset.2 h.mem_right, hv'⟩)
          obtain ⟨p', q', h1, h2⟩ := hr.ex
          have hlt : (restOf L S).length < n := by
            rw [restOf_eq, partOf_length h.nodup (rest_subset _ _), ← hlen, ← m1, List.length_map, ← List.toFinset_card_of_nodup h.nodup]
            exact rest_card_lt hS hne
          rw [h1] at hlt
          rw [h1, h2, List.map_append, List.map_append, List.map_cons, List.map_cons, List.map_cons, List.map_cons]
          exact IH _ hlt _ _ _ _ (by simp)
      have hs := sum_swap h hκ N Prod.fst ∅ (empty_mem_bsets _) (by simp) hflip
      rw [m1, m2, conTerm_empty κ N _ h.nodup, conTerm_empty κ N _ h.nodup', m1, m2, part_rest h e1, List.map_append, hp, hq, ← hP, ← hP, ← hP, hcar, hu, hv, hpair] at hs
      have : N (pre ++ x :: y :: post) + N (pre ++ y :: x :: post) = 0 := by
        have h' : (0 : B) + d x y • P (pre ++ post) = N (pre ++ x :: y :: post) + N (pre ++ y :: x :: post) + d x y • P (pre ++ post) := by rw [zero_add]; exact hs
        exact (add_right_cancel h').symm
      exact eq_neg_of_add_eq_zero_left this
  intro pre x y post
  exact main _ pre x y post rfl

end
end Gno
end Wicked
