import Verif.Proofs.GM
import Verif.Proofs.Order
import Verif.Proofs.Partitions
import Verif.Props.Combinatorics
import Verif.Proofs.CanonTerm
/-! The vectors visited by a `std::next_permutation` loop, and the leg distributions built from them -/
namespace Wicked
open CppLt CppEq

theorem mem_stdUnique {α : Type _} [CppEq α] [DecidableEq α] (h : ∀ a b : α, eq a b = true ↔ a = b) (x : α) :
    ∀ (n : Nat) (l : List α), l.length ≤ n → (x ∈ stdUnique l ↔ x ∈ l) := by
  intro n
  induction n with
  | zero => intro l hl; have : l = [] := List.length_eq_zero_iff.1 (by omega); subst this; simp [stdUnique]
  | succ n ih =>
    intro l hl
    match l with
    | [] => simp [stdUnique]
    | [a] => simp [stdUnique]
    | a :: b :: l =>
      rw [stdUnique]
      split
      · rename_i hab
        have hab := (h a b).1 hab
        subst hab
        rw [ih (a :: l) (by simp at hl ⊢; omega)]; simp
      · rw [List.mem_cons, ih (b :: l) (by simp at hl ⊢; omega)]; simp

theorem stdUnique_strict : ∀ (n : Nat) (l : List Int), l.length ≤ n → l.Pairwise (· ≤ ·) →
    (stdUnique l).Pairwise (· < ·) := by
  intro n
  induction n with
  | zero => intro l hl _; have : l = [] := List.length_eq_zero_iff.1 (by omega); subst this; simp [stdUnique]
  | succ n ih =>
    intro l hl hs
    match l with
    | [] => simp [stdUnique]
    | [a] => simp [stdUnique]
    | a :: b :: l =>
      have h1 := List.pairwise_cons.1 hs
      have h2 := List.pairwise_cons.1 h1.2
      rw [stdUnique]
      split
      · apply ih _ (by simp at hl ⊢; omega)
        exact List.pairwise_cons.2 ⟨fun x hx => h1.1 x (by simp [hx]), h2.2⟩
      · rename_i hab
        have hne : a ≠ b := fun e => hab (by simp [CppEq.eq, e])
        refine List.pairwise_cons.2 ⟨?_, ih _ (by simp at hl ⊢; omega) h1.2⟩
        intro x hx
        rw [mem_stdUnique (fun a b => by simp [CppEq.eq]) x _ _ (le_refl _)] at hx
        have hab' := h1.1 b (by simp)
        rcases List.mem_cons.1 hx with rfl | hx
        · omega
        · have := h2.1 x hx; omega

theorem mem_lexPermsAux : ∀ (n : Nat) (l : List Int), l.length = n → ∀ p, p ∈ lexPermsAux n l ↔ p.Perm l := by
  intro n
  induction n with
  | zero =>
    intro l hl p
    have : l = [] := List.length_eq_zero_iff.1 hl
    subst this; simp [lexPermsAux]
  | succ n ih =>
    intro l hl p
    simp only [lexPermsAux, List.mem_flatMap, List.mem_map]
    constructor
    · rintro ⟨x, hx, q, hq, rfl⟩
      rw [mem_stdUnique (fun a b => by simp [CppEq.eq]) x _ _ (le_refl _)] at hx
      rw [ih _ (by rw [List.length_erase_of_mem hx]; omega)] at hq
      exact (hq.cons x).trans (List.perm_cons_erase hx).symm
    · intro h
      match p with
      | [] => have := h.length_eq; simp at this; omega
      | x :: q =>
        have hx : x ∈ l := h.subset (by simp)
        refine ⟨x, (mem_stdUnique (fun a b => by simp [CppEq.eq]) x _ _ (le_refl _)).2 hx, q, ?_, rfl⟩
        rw [ih _ (by rw [List.length_erase_of_mem hx]; omega)]
        exact (List.perm_cons x).1 (h.trans (List.perm_cons_erase hx))

/-- a `next_permutation` loop started from any vector of the right content visits exactly the
permutations -/
theorem mem_lexPerms (l p : List Int) : p ∈ lexPerms l ↔ p.Perm l := mem_lexPermsAux _ l rfl p

theorem lexPermsAux_sorted : ∀ (n : Nat) (l : List Int), l.length = n → l.Pairwise (· ≤ ·) →
    (lexPermsAux n l).Pairwise (· < ·) := by
  intro n
  induction n with
  | zero => intro l _ _; simp [lexPermsAux]
  | succ n ih =>
    intro l hl hs
    simp only [lexPermsAux]
    rw [List.pairwise_flatMap]
    constructor
    · intro x hx
      rw [mem_stdUnique (fun a b => by simp [CppEq.eq]) x _ _ (le_refl _)] at hx
      rw [List.pairwise_map]
      have := ih (l.erase x) (by rw [List.length_erase_of_mem hx]; omega) (hs.sublist List.erase_sublist)
      exact this.imp (fun h => List.cons_lt_cons_iff.2 (Or.inr ⟨rfl, h⟩))
    · refine (stdUnique_strict _ l (le_refl _) hs).imp ?_
      intro x y hxy p hp q hq
      obtain ⟨p, _, rfl⟩ := List.mem_map.1 hp
      obtain ⟨q, _, rfl⟩ := List.mem_map.1 hq
      exact List.cons_lt_cons_iff.2 (Or.inl hxy)

/-- the loop visits the permutations in strictly increasing lexicographic order -/
theorem lexPerms_sorted (l : List Int) (hs : l.Pairwise (· ≤ ·)) : (lexPerms l).Pairwise (· < ·) :=
  lexPermsAux_sorted _ l rfl hs

theorem lexPerms_nodup (l : List Int) (hs : l.Pairwise (· ≤ ·)) : (lexPerms l).Nodup :=
  (lexPerms_sorted l hs).imp (fun h => ne_of_lt h)

theorem stdSort_int_sorted (l : List Int) : (stdSort l).Pairwise (· ≤ ·) := by
  have := stdSort_sorted l
  refine List.Pairwise.imp ?_ this
  intro a b h
  simpa [CppLt.lt] using h

/-- the content of a leg distribution: parts of the partition padded with zeros -/
theorem part_of_perm {n : Int} {P : List Int} (hP : IsPartition n P) {z : Nat} {p : List Int}
    (h : p.Perm (P ++ List.replicate z 0)) : (p.filter (fun a => decide (0 < a))).Perm P := by
  have := h.filter (fun a => decide (0 < a))
  rw [List.filter_append] at this
  have h1 : P.filter (fun a => decide (0 < a)) = P := by
    rw [List.filter_eq_self]; intro a ha; have := hP.2.1 a ha; simp; omega
  have h2 : (List.replicate z (0 : Int)).filter (fun a => decide (0 < a)) = [] := by
    rw [List.filter_eq_nil_iff]; intro a ha; have := List.eq_of_mem_replicate ha; simp [this]
  rw [h1, h2, List.append_nil] at this
  exact this

theorem partition_unique {n : Int} {P Q : List Int} (hP : IsPartition n P) (hQ : IsPartition n Q) (h : P.Perm Q) :
    P = Q := h.eq_of_pairwise (fun _ _ _ _ h1 h2 => le_antisymm h2 h1) hP.1 hQ.1

theorem perm_pad (n : Nat) (p : List Int) (hl : p.length = n) (hp : ∀ a ∈ p, 0 ≤ a) :
    ∃ P, IsPartition p.sum P ∧ P.length ≤ n ∧ p.Perm (P ++ List.replicate (n - P.length) 0) := by
  classical
  let Q := p.filter (fun a => decide (0 < a))
  let P := Q.mergeSort (fun a b => decide (b ≤ a))
  have hPQ : P.Perm Q := List.mergeSort_perm _ _
  have hsplit : p.Perm (Q ++ p.filter (fun a => !decide (0 < a))) := (List.filter_append_perm _ p).symm
  have hz : p.filter (fun a => !decide (0 < a)) = List.replicate (p.filter (fun a => !decide (0 < a))).length 0 := by
    rw [List.eq_replicate_iff]
    refine ⟨rfl, fun b hb => ?_⟩
    have := List.mem_filter.1 hb
    have h0 := hp b this.1
    have h1 := this.2
    simp at h1; omega
  have hlen : Q.length + (p.filter (fun a => !decide (0 < a))).length = n := by
    have := hsplit.length_eq; rw [List.length_append] at this; omega
  have hperm : p.Perm (P ++ List.replicate (n - P.length) 0) := by
    refine hsplit.trans ?_
    rw [hz]
    have : (p.filter (fun a => !decide (0 < a))).length = n - P.length := by rw [hPQ.length_eq]; omega
    rw [this]
    exact hPQ.symm.append_right _
  refine ⟨P, ⟨?_, ?_, ?_⟩, ?_, hperm⟩
  · have := List.pairwise_mergeSort (le := fun (a b : Int) => decide (b ≤ a)) (by intro a b c; simp; omega)
      (by intro a b; simp; omega) Q
    exact this.imp (by intro a b h; simpa using h)
  · intro a ha
    have := (List.mem_filter.1 (hPQ.subset ha)).2
    simp at this; omega
  · have := hperm.sum_eq; rw [List.sum_append] at this; simp at this; exact this.symm
  · rw [hPQ.length_eq]; omega

theorem isPartition_one {p : List Int} : IsPartition 1 p ↔ p = [1] := by
  constructor
  · rintro ⟨_, h2, h3⟩
    match p with
    | [] => simp at h3
    | a :: l =>
      have ha := h2 a (by simp)
      have hl : ∀ x ∈ l, 1 ≤ x := fun x hx => h2 x (by simp [hx])
      have := sum_pos_of hl
      rw [List.sum_cons] at h3
      have hl' : l = [] := by
        by_contra hne; have := this.2 hne; omega
      subst hl'; simp at h3; simp [h3]
  · rintro rfl; exact ⟨by simp, by simp, by simp⟩

/-- the partitions used by step 1, for at least one leg and one operator -/
theorem parts_spec (k : Int) (n : Nat) (hk : 1 ≤ k) (hn : 1 ≤ n) :
    ∃ L : List (List Int), integerPartitions k n = .ok L ∧ L.Nodup ∧
      ∀ p, p ∈ L ↔ IsPartition k p ∧ p.length ≤ n := by
  by_cases h : 2 ≤ k
  · obtain ⟨L, h1, _, h3, h4⟩ := C09_integer_partitions k n h
    exact ⟨L, h1, h3, fun p => by rw [h4]; simp⟩
  · have : k = 1 := by omega
    subst this
    refine ⟨[[1]], by rw [C09_small_cases 1 n (by omega)]; rfl, by simp, fun p => ?_⟩
    rw [isPartition_one]
    constructor
    · intro h; simp at h; subst h; exact ⟨rfl, by simpa using hn⟩
    · rintro ⟨rfl, _⟩; simp

/-- **leg distributions**: every way to distribute `k` legs over `n` operators appears exactly once -/
theorem legPerms_spec (k : Int) (n : Nat) (hk : 1 ≤ k) (hn : 1 ≤ n) :
    ∃ L : List (List Int), Wick.legPerms k n = .ok L ∧ L.Nodup ∧
      ∀ p, p ∈ L ↔ p.length = n ∧ (∀ a ∈ p, 0 ≤ a) ∧ p.sum = k := by
  obtain ⟨L, h1, h2, h3⟩ := parts_spec k n hk hn
  let pad := fun P : List Int => stdSort (P ++ List.replicate (n - P.length) 0)
  have hm : L.mapM (m := Except Fault) (fun part => if part.length ≤ n then
      (.ok (lexPerms (stdSort (part ++ List.replicate (n - part.length) 0))) : Res _) else .error .ub)
      = .ok (L.map (fun P => lexPerms (pad P))) := by
    rw [mapM_ok_iff]
    rw [List.forall₂_map_right_iff, List.forall₂_same]
    intro P hP
    rw [if_pos ((h3 P).1 hP).2]
  refine ⟨(L.map (fun P => lexPerms (pad P))).flatten, ?_, ?_, ?_⟩
  · unfold Wick.legPerms
    rw [h1]
    simp only [bind, Except.bind, hm]
    rfl
  · rw [List.nodup_flatten]
    constructor
    · intro l hl
      obtain ⟨P, _, rfl⟩ := List.mem_map.1 hl
      exact lexPerms_nodup _ (stdSort_int_sorted _)
    · rw [List.pairwise_map]
      refine List.Pairwise.imp_of_mem ?_ h2
      intro P Q hP hQ hne
      rw [List.disjoint_left]
      intro p hp hq
      rw [mem_lexPerms] at hp hq
      have e1 := part_of_perm ((h3 P).1 hP).1 (hp.trans (stdSort_perm _))
      have e2 := part_of_perm ((h3 Q).1 hQ).1 (hq.trans (stdSort_perm _))
      exact hne (partition_unique ((h3 P).1 hP).1 ((h3 Q).1 hQ).1 (e1.symm.trans e2))
  · intro p
    rw [List.mem_flatten]
    constructor
    · rintro ⟨l, hl, hp⟩
      obtain ⟨P, hP, rfl⟩ := List.mem_map.1 hl
      rw [mem_lexPerms] at hp
      have hp := hp.trans (stdSort_perm _)
      have hPs := (h3 P).1 hP
      refine ⟨by rw [hp.length_eq, List.length_append, List.length_replicate]; omega, ?_, ?_⟩
      · intro a ha
        rcases List.mem_append.1 (hp.subset ha) with h | h
        · have := hPs.1.2.1 a h; omega
        · rw [List.eq_of_mem_replicate h]
      · rw [hp.sum_eq, List.sum_append, hPs.1.2.2]; simp
    · rintro ⟨hl, hp, hs⟩
      obtain ⟨P, hP, hPl, hperm⟩ := perm_pad n p hl hp
      rw [hs] at hP
      exact ⟨_, List.mem_map.2 ⟨P, (h3 P).2 ⟨hP, hPl⟩, rfl⟩,
        (mem_lexPerms _ _).2 (hperm.trans (stdSort_perm _).symm)⟩

end Wicked
