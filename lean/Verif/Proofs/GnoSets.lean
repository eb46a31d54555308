import Mathlib.Algebra.BigOperators.Ring.Finset
import Mathlib.Algebra.BigOperators.Ring.List
import Mathlib.Algebra.Algebra.Basic
import Mathlib.Data.Finset.Powerset
import Mathlib.Algebra.BigOperators.Intervals
import Mathlib.Algebra.BigOperators.GroupWithZero.Action
import Mathlib.Tactic.Ring
import Mathlib.Tactic.NormNum
import Mathlib.Tactic.Push
/-! Sums over sets of pairwise disjoint blocks, with signs -/
namespace Wicked
namespace Gno
section
variable {α R B : Type} [DecidableEq α] [CommRing R] [Ring B] [Algebra R B]

/-- sign of moving the block `b` to the left of the elements of `I` -/
def sg (r : α → Int) (b I : Finset α) : Int := ∏ x ∈ b, ∏ y ∈ I, if r y < r x then -1 else 1

theorem sg_union (r : α → Int) {b I J : Finset α} (h : Disjoint I J) : sg r b (I ∪ J) = sg r b I * sg r b J := by
  unfold sg
  rw [← Finset.prod_mul_distrib]
  exact Finset.prod_congr rfl (fun x _ => Finset.prod_union h)

theorem sg_empty (r : α → Int) (b : Finset α) : sg r b ∅ = 1 := by simp [sg]

theorem sg_sq (r : α → Int) (b I : Finset α) : sg r b I * sg r b I = 1 := by
  unfold sg
  rw [← Finset.prod_mul_distrib]
  apply Finset.prod_eq_one
  intro x _
  rw [← Finset.prod_mul_distrib]
  apply Finset.prod_eq_one
  intro y _
  split <;> norm_num

/-- all of `b` stands left of `I` -/
theorem sg_lt {r : α → Int} {b I : Finset α} (h : ∀ x ∈ b, ∀ y ∈ I, r x < r y) : sg r b I = 1 := by
  unfold sg
  apply Finset.prod_eq_one
  intro x hx
  apply Finset.prod_eq_one
  intro y hy
  rw [if_neg (by have := h x hx y hy; omega)]

theorem sg_swap {r : α → Int} {b I : Finset α} (h : ∀ x ∈ b, ∀ y ∈ I, r x ≠ r y) (hb : Even b.card) : sg r b I = sg r I b := by
  unfold sg
  rw [Finset.prod_comm]
  apply Finset.prod_congr rfl
  intro y hy
  have e : ∀ x ∈ b, (if r y < r x then (-1 : Int) else 1) = (-1) * (if r x < r y then -1 else 1) := by
    intro x hx
    have := h x hx y hy
    by_cases h1 : r y < r x
    · rw [if_pos h1, if_neg (by omega)]; norm_num
    · rw [if_neg h1, if_pos (by omega)]; norm_num
  rw [Finset.prod_congr rfl e, Finset.prod_mul_distrib, Finset.prod_const, hb.neg_one_pow, one_mul]

/-- all of `b` stands right of `I` -/
theorem sg_gt {r : α → Int} {b I : Finset α} (h : ∀ x ∈ b, ∀ y ∈ I, r y < r x) (hb : Even b.card) : sg r b I = 1 := by
  rw [sg_swap (fun x hx y hy => by have := h x hx y hy; omega) hb]
  exact sg_lt (fun x hx y hy => h y hy x hx)

theorem sg_congr {r r' : α → Int} {b I : Finset α} (h : ∀ x ∈ b, ∀ y ∈ I, (r y < r x ↔ r' y < r' x)) : sg r b I = sg r' b I := by
  unfold sg
  exact Finset.prod_congr rfl (fun x hx => Finset.prod_congr rfl (fun y hy => by simp only [h x hx y hy]))

/-- coefficient of a list of blocks that are taken out of `I` one after the other -/
def coefL (r : α → Int) (k : Finset α → R) : List (Finset α) → Finset α → R
  | [], _ => 1
  | b :: bs, I => (k b * ((sg r b (I \ b) : Int) : R)) * coefL r k bs (I \ b)

/-- what the blocks leave over -/
def minus : Finset α → List (Finset α) → Finset α
  | I, [] => I
  | I, b :: bs => minus (I \ b) bs

theorem mem_minus {I : Finset α} {bs : List (Finset α)} {x : α} : x ∈ minus I bs ↔ x ∈ I ∧ ∀ b ∈ bs, x ∉ b := by
  induction bs generalizing I with
  | nil => simp [minus]
  | cons b bs ih => rw [minus, ih]; simp [and_assoc]

theorem coefL_append (r : α → Int) (k : Finset α → R) (bs bs' : List (Finset α)) (I : Finset α) :
    coefL r k (bs ++ bs') I = coefL r k bs I * coefL r k bs' (minus I bs) := by
  induction bs generalizing I with
  | nil => simp [coefL, minus]
  | cons b bs ih => rw [List.cons_append, coefL, ih, coefL, minus]; ring

theorem coefL_zero {r : α → Int} {k : Finset α → R} {bs : List (Finset α)} (h : ∃ b ∈ bs, k b = 0) (I : Finset α) : coefL r k bs I = 0 := by
  induction bs generalizing I with
  | nil => simp at h
  | cons b bs ih =>
    rw [coefL]
    obtain ⟨c, hc, h0⟩ := h
    rcases List.mem_cons.1 hc with rfl | hc
    · rw [h0]; ring
    · rw [ih ⟨c, hc, h0⟩, mul_zero]

theorem coefL_congr {r r' : α → Int} {k k' : Finset α → R} {bs : List (Finset α)} {I : Finset α} (hI : ∀ b ∈ bs, b ⊆ I) (hd : bs.Pairwise Disjoint)
    (h : ∀ x ∈ I, ∀ y ∈ I, (r y < r x ↔ r' y < r' x)) (hk : ∀ b ∈ bs, k b = k' b) : coefL r k bs I = coefL r' k' bs I := by
  induction bs generalizing I with
  | nil => rfl
  | cons b bs ih =>
    rw [List.pairwise_cons] at hd
    rw [coefL, coefL, hk b (by simp), sg_congr (r := r) (r' := r') (fun x hx y hy => h x (hI b (by simp) hx) y (Finset.mem_sdiff.1 hy).1),
      ih (fun c hc x hx => Finset.mem_sdiff.2 ⟨hI c (by simp [hc]) hx, fun hb => Finset.disjoint_left.1 (hd.1 c hc) hb hx⟩) hd.2
        (fun x hx y hy => h x (Finset.mem_sdiff.1 hx).1 y (Finset.mem_sdiff.1 hy).1) (fun c hc => hk c (by simp [hc]))]

theorem coefL_perm_even {r : α → Int} {k : Finset α → R} {bs bs' : List (Finset α)} (h : bs.Perm bs') : ∀ {I : Finset α}, (∀ b ∈ bs, b ⊆ I) → bs.Pairwise Disjoint →
    (∀ b ∈ bs, Even b.card) → (∀ x ∈ I, ∀ y ∈ I, r x = r y → x = y) → coefL r k bs I = coefL r k bs' I := by
  induction h with
  | nil => intros; rfl
  | cons b p ih =>
    intro I hI hd he hr
    rw [List.pairwise_cons] at hd
    rw [coefL, coefL, ih (fun c hc x hx => Finset.mem_sdiff.2 ⟨hI c (by simp [hc]) hx, fun hb => Finset.disjoint_left.1 (hd.1 c hc) hb hx⟩) hd.2
      (fun c hc => he c (by simp [hc])) (fun x hx y hy => hr x (Finset.mem_sdiff.1 hx).1 y (Finset.mem_sdiff.1 hy).1)]
  | swap b c bs =>
    intro I hI hd he hr
    have hcb : Disjoint c b := (List.pairwise_cons.1 hd).1 b (by simp)
    have hb := hI b (by simp)
    have hc := hI c (by simp)
    have e : (I \ c) \ b = (I \ b) \ c := by rw [sdiff_sdiff_comm]
    have e1 : I \ c = b ∪ ((I \ c) \ b) := by
      rw [Finset.union_sdiff_of_subset]
      intro x hx
      exact Finset.mem_sdiff.2 ⟨hb hx, fun h => Finset.disjoint_left.1 hcb h hx⟩
    have e2 : I \ b = c ∪ ((I \ b) \ c) := by
      rw [Finset.union_sdiff_of_subset]
      intro x hx
      exact Finset.mem_sdiff.2 ⟨hc hx, fun h => Finset.disjoint_left.1 hcb hx h⟩
    simp only [coefL]
    have s1 : sg r c (I \ c) = sg r c b * sg r c ((I \ b) \ c) := by
      rw [← e]; conv_lhs => rw [e1]
      exact sg_union r Finset.disjoint_sdiff
    have s2 : sg r b (I \ b) = sg r b c * sg r b ((I \ c) \ b) := by
      rw [e]; conv_lhs => rw [e2]
      exact sg_union r Finset.disjoint_sdiff
    have s3 : sg r c b = sg r b c := sg_swap (fun x hx y hy hxy => by
      have := hr x (hc hx) y (hb hy) hxy
      subst this
      exact Finset.disjoint_left.1 hcb hx hy) (he c (by simp))
    rw [s1, s2, s3, e]
    push_cast
    ring
  | trans p q ih1 ih2 =>
    intro I hI hd he hr
    rw [ih1 hI hd he hr]
    exact ih2 (fun b hb => hI b (p.mem_iff.2 hb)) (hd.perm p (fun h => h.symm)) (fun b hb => he b (p.mem_iff.2 hb)) hr

theorem coefL_perm {r : α → Int} {k : Finset α → R} {bs bs' : List (Finset α)} (h : bs.Perm bs') {I : Finset α} (hI : ∀ b ∈ bs, b ⊆ I) (hd : bs.Pairwise Disjoint)
    (hk : ∀ b ∈ bs, ¬ Even b.card → k b = 0) (hr : ∀ x ∈ I, ∀ y ∈ I, r x = r y → x = y) : coefL r k bs I = coefL r k bs' I := by
  by_cases he : ∀ b ∈ bs, Even b.card
  · exact coefL_perm_even h hI hd he hr
  · push Not at he
    obtain ⟨b, hb, hne⟩ := he
    have h0 := hk b hb (by simpa using hne)
    rw [coefL_zero ⟨b, hb, h0⟩, coefL_zero ⟨b, h.mem_iff.1 hb, h0⟩]

/-- blocks on the left part of `I` do not notice the right part -/
theorem coefL_left {r : α → Int} {k : Finset α → R} {bs : List (Finset α)} {I J : Finset α} (hI : ∀ b ∈ bs, b ⊆ I) (hd : bs.Pairwise Disjoint)
    (hlt : ∀ x ∈ I, ∀ y ∈ J, r x < r y) : coefL r k bs (I ∪ J) = coefL r k bs I := by
  have hIJ : Disjoint I J := Finset.disjoint_left.2 (fun x hx hy => by have := hlt x hx x hy; omega)
  induction bs generalizing I with
  | nil => rfl
  | cons b bs ih =>
    rw [List.pairwise_cons] at hd
    have hb := hI b (by simp)
    have e : (I ∪ J) \ b = (I \ b) ∪ J := by
      rw [Finset.union_sdiff_distrib, Finset.sdiff_eq_self_of_disjoint (Finset.disjoint_of_subset_right hb hIJ.symm)]
    rw [coefL, coefL, e, sg_union r (Finset.disjoint_of_subset_left Finset.sdiff_subset hIJ), sg_lt (fun x hx y hy => hlt x (hb hx) y hy), mul_one]
    rw [ih (fun c hc x hx => Finset.mem_sdiff.2 ⟨hI c (by simp [hc]) hx, fun h' => Finset.disjoint_left.1 (hd.1 c hc) h' hx⟩) hd.2
      (fun x hx => hlt x (Finset.mem_sdiff.1 hx).1) (Finset.disjoint_of_subset_left Finset.sdiff_subset hIJ)]

/-- blocks on the right part of `I` do not notice the left part -/
theorem coefL_right {r : α → Int} {k : Finset α → R} {bs : List (Finset α)} {I J : Finset α} (hJ : ∀ b ∈ bs, b ⊆ J) (hd : bs.Pairwise Disjoint)
    (hlt : ∀ x ∈ I, ∀ y ∈ J, r x < r y) (hk : ∀ b ∈ bs, ¬ Even b.card → k b = 0) : coefL r k bs (I ∪ J) = coefL r k bs J := by
  by_cases he : ∀ b ∈ bs, Even b.card
  · clear hk
    have hIJ : Disjoint I J := Finset.disjoint_left.2 (fun x hx hy => by have := hlt x hx x hy; omega)
    induction bs generalizing J with
    | nil => rfl
    | cons b bs ih =>
      rw [List.pairwise_cons] at hd
      have hb := hJ b (by simp)
      have e : (I ∪ J) \ b = I ∪ (J \ b) := by
        rw [Finset.union_sdiff_distrib, Finset.sdiff_eq_self_of_disjoint (Finset.disjoint_of_subset_right hb hIJ)]
      rw [coefL, coefL, e, sg_union r (Finset.disjoint_of_subset_right Finset.sdiff_subset hIJ), sg_gt (fun x hx y hy => hlt y hy x (hb hx)) (he b (by simp)), one_mul]
      rw [ih (fun c hc x hx => Finset.mem_sdiff.2 ⟨hJ c (by simp [hc]) hx, fun h' => Finset.disjoint_left.1 (hd.1 c hc) h' hx⟩) hd.2
        (fun x hx y hy => hlt x hx y (Finset.mem_sdiff.1 hy).1) (fun c hc => he c (by simp [hc])) (Finset.disjoint_of_subset_right Finset.sdiff_subset hIJ)]
  · push Not at he
    obtain ⟨b, hb, hne⟩ := he
    have h0 := hk b hb (by simpa using hne)
    rw [coefL_zero ⟨b, hb, h0⟩, coefL_zero ⟨b, hb, h0⟩]

open Classical in
/-- sets of pairwise disjoint nonempty blocks in `I` -/
noncomputable def bsets (I : Finset α) : Finset (Finset (Finset α)) :=
  I.powerset.powerset.filter (fun S => ∅ ∉ S ∧ ∀ b ∈ S, ∀ b' ∈ S, b ≠ b' → Disjoint b b')

theorem mem_bsets {I : Finset α} {S : Finset (Finset α)} :
    S ∈ bsets I ↔ (∀ b ∈ S, b ⊆ I) ∧ (∀ b ∈ S, b.Nonempty) ∧ ∀ b ∈ S, ∀ b' ∈ S, b ≠ b' → Disjoint b b' := by
  unfold bsets
  rw [Finset.mem_filter, Finset.mem_powerset]
  constructor
  · rintro ⟨h1, h2, h3⟩
    exact ⟨fun b hb => Finset.mem_powerset.1 (h1 hb), fun b hb => Finset.nonempty_of_ne_empty (fun h => h2 (h ▸ hb)), h3⟩
  · rintro ⟨h1, h2, h3⟩
    exact ⟨fun b hb => Finset.mem_powerset.2 (h1 b hb), fun h => Finset.not_nonempty_empty (h2 _ h), h3⟩

theorem bsets_pairwise {I : Finset α} {S : Finset (Finset α)} (h : S ∈ bsets I) : S.toList.Pairwise Disjoint := by
  refine List.Pairwise.imp_of_mem ?_ (Finset.nodup_toList S)
  intro b b' hb hb' hne
  exact (mem_bsets.1 h).2.2 b (Finset.mem_toList.1 hb) b' (Finset.mem_toList.1 hb') hne

/-- coefficient of a set of blocks -/
noncomputable def coef (r : α → Int) (k : Finset α → R) (S : Finset (Finset α)) (I : Finset α) : R := coefL r k S.toList I

/-- what a set of blocks leaves over -/
def rest (I : Finset α) (S : Finset (Finset α)) : Finset α := I.filter (fun x => ∀ b ∈ S, x ∉ b)

theorem mem_rest {I : Finset α} {S : Finset (Finset α)} {x : α} : x ∈ rest I S ↔ x ∈ I ∧ ∀ b ∈ S, x ∉ b := Finset.mem_filter

theorem minus_toList (I : Finset α) (S : Finset (Finset α)) : minus I S.toList = rest I S := by
  ext x; rw [mem_minus, mem_rest]; simp

theorem coef_union {r : α → Int} {k : Finset α → R} {I : Finset α} {W C : Finset (Finset α)} (h : W ∪ C ∈ bsets I) (hd : Disjoint W C)
    (hk : ∀ b, ¬ Even b.card → k b = 0) (hr : ∀ x ∈ I, ∀ y ∈ I, r x = r y → x = y) :
    coef r k (W ∪ C) I = coef r k W I * coef r k C (rest I W) := by
  unfold coef
  have hp : (W ∪ C).toList.Perm (W.toList ++ C.toList) := by
    rw [List.perm_ext_iff_of_nodup (Finset.nodup_toList _)]
    · intro b; simp
    · rw [List.nodup_append]
      exact ⟨Finset.nodup_toList _, Finset.nodup_toList _, fun a ha b hb e => Finset.disjoint_left.1 hd (Finset.mem_toList.1 ha) (e ▸ Finset.mem_toList.1 hb)⟩
  rw [coefL_perm hp (fun b hb => (mem_bsets.1 h).1 b (Finset.mem_toList.1 hb)) (bsets_pairwise h) (fun b _ => hk b) hr, coefL_append, minus_toList]

/-- splitting the sum over all sets of blocks by a property of the blocks -/
theorem sum_split {M : Type} [AddCommMonoid M] (w : Finset α → Prop) [DecidablePred w] (I : Finset α) (F : Finset (Finset α) → M) :
    ∑ S ∈ bsets I, F S = ∑ W ∈ (bsets I).filter (fun W => ∀ b ∈ W, w b), ∑ C ∈ (bsets (rest I W)).filter (fun C => ∀ b ∈ C, ¬ w b), F (W ∪ C) := by
  rw [Finset.sum_sigma']
  refine Finset.sum_bij' (fun S _ => (⟨S.filter w, S.filter (fun b => ¬ w b)⟩ : (_ : Finset (Finset α)) × Finset (Finset α)))
    (fun p _ => p.1 ∪ p.2) ?_ ?_ ?_ ?_ ?_
  · intro S hS
    obtain ⟨h1, h2, h3⟩ := mem_bsets.1 hS
    rw [Finset.mem_sigma]
    refine ⟨Finset.mem_filter.2 ⟨mem_bsets.2 ⟨?_, ?_, ?_⟩, ?_⟩, Finset.mem_filter.2 ⟨mem_bsets.2 ⟨?_, ?_, ?_⟩, ?_⟩⟩
    · exact fun b hb => h1 b (Finset.mem_filter.1 hb).1
    · exact fun b hb => h2 b (Finset.mem_filter.1 hb).1
    · exact fun b hb b' hb' => h3 b (Finset.mem_filter.1 hb).1 b' (Finset.mem_filter.1 hb').1
    · exact fun b hb => (Finset.mem_filter.1 hb).2
    · intro b hb x hx
      rw [Finset.mem_filter] at hb
      refine mem_rest.2 ⟨h1 b hb.1 hx, fun c hc hxc => ?_⟩
      dsimp only at hc
      rw [Finset.mem_filter] at hc
      exact Finset.disjoint_left.1 (h3 b hb.1 c hc.1 (fun e => hb.2 (e ▸ hc.2))) hx hxc
    · exact fun b hb => h2 b (Finset.mem_filter.1 hb).1
    · exact fun b hb b' hb' => h3 b (Finset.mem_filter.1 hb).1 b' (Finset.mem_filter.1 hb').1
    · exact fun b hb => (Finset.mem_filter.1 hb).2
  · rintro ⟨W, C⟩ hp
    rw [Finset.mem_sigma] at hp
    obtain ⟨hW, hC⟩ := hp
    dsimp only at hW hC ⊢
    obtain ⟨hW, hw⟩ := Finset.mem_filter.1 hW
    obtain ⟨hC, hc⟩ := Finset.mem_filter.1 hC
    obtain ⟨w1, w2, w3⟩ := mem_bsets.1 hW
    obtain ⟨c1, c2, c3⟩ := mem_bsets.1 hC
    have hx : ∀ b ∈ W, ∀ c ∈ C, Disjoint b c := fun b hb c hc => Finset.disjoint_left.2 (fun x hx hx' => (mem_rest.1 (c1 c hc hx')).2 b hb hx)
    refine mem_bsets.2 ⟨?_, ?_, ?_⟩
    · intro b hb
      rcases Finset.mem_union.1 hb with hb | hb
      · exact w1 b hb
      · exact fun x hx => (mem_rest.1 (c1 b hb hx)).1
    · intro b hb
      rcases Finset.mem_union.1 hb with hb | hb
      · exact w2 b hb
      · exact c2 b hb
    · intro b hb b' hb' hne
      rcases Finset.mem_union.1 hb with hb | hb <;> rcases Finset.mem_union.1 hb' with hb' | hb'
      · exact w3 b hb b' hb' hne
      · exact hx b hb b' hb'
      · exact (hx b' hb' b hb).symm
      · exact c3 b hb b' hb' hne
  · intro S _
    exact Finset.filter_union_filter_not_eq _ _
  · rintro ⟨W, C⟩ hp
    rw [Finset.mem_sigma] at hp
    obtain ⟨hW, hC⟩ := hp
    dsimp only at hW hC ⊢
    obtain ⟨hW, hw⟩ := Finset.mem_filter.1 hW
    obtain ⟨hC, hc⟩ := Finset.mem_filter.1 hC
    rw [Finset.filter_union, Finset.filter_union, Finset.filter_true_of_mem hw, Finset.filter_true_of_mem hc,
      Finset.filter_false_of_mem (fun b hb => hc b hb), Finset.filter_false_of_mem (fun b hb h => h (hw b hb)), Finset.union_empty, Finset.empty_union]
  · intro S _
    exact congrArg F (Finset.filter_union_filter_not_eq _ _).symm

/-! ### segments -/

/-- the elements of factor `j` -/
def seg (c : α → Nat) (I : Finset α) (j : Nat) : Finset α := I.filter (fun x => c x = j)
/-- the elements of the first `n` factors -/
def below (c : α → Nat) (I : Finset α) (n : Nat) : Finset α := I.filter (fun x => c x < n)
/-- a block within one factor -/
def Mono (c : α → Nat) (b : Finset α) : Prop := ∀ x ∈ b, ∀ y ∈ b, c x = c y

theorem below_succ (c : α → Nat) (I : Finset α) (n : Nat) : below c I (n + 1) = below c I n ∪ seg c I n := by
  ext x
  simp only [below, seg, Finset.mem_union, Finset.mem_filter]
  constructor
  · rintro ⟨h1, h2⟩
    rcases Nat.lt_succ_iff_lt_or_eq.1 h2 with h | h
    · exact Or.inl ⟨h1, h⟩
    · exact Or.inr ⟨h1, h⟩
  · rintro (⟨h1, h2⟩ | ⟨h1, h2⟩)
    · exact ⟨h1, by omega⟩
    · exact ⟨h1, by omega⟩

theorem below_seg_lt {c : α → Nat} {r : α → Int} {I : Finset α} (hm : ∀ x ∈ I, ∀ y ∈ I, c x < c y → r x < r y) (n : Nat) :
    ∀ x ∈ below c I n, ∀ y ∈ seg c I n, r x < r y := by
  intro x hx y hy
  simp only [below, seg, Finset.mem_filter] at hx hy
  exact hm x hx.1 y hy.1 (by omega)

theorem mono_cases {c : α → Nat} {I b : Finset α} {n : Nat} (h : Mono c b) (hb : b ⊆ below c I (n + 1)) : b ⊆ below c I n ∨ b ⊆ seg c I n := by
  by_cases he : ∃ x ∈ b, c x = n
  · obtain ⟨x, hx, hxn⟩ := he
    right
    intro y hy
    have := hb hy
    simp only [below, seg, Finset.mem_filter] at this ⊢
    exact ⟨this.1, by rw [← h x hx y hy, hxn]⟩
  · left
    intro y hy
    have := hb hy
    simp only [below, Finset.mem_filter] at this ⊢
    refine ⟨this.1, ?_⟩
    have : c y ≠ n := fun e => he ⟨y, hy, e⟩
    omega

open Classical in
/-- The product of the expansions of the factors is the sum over the sets of blocks that lie within the factors. -/
theorem within_sum {r : α → Int} {k : Finset α → R} {c : α → Nat} {I : Finset α} {p g : Finset α → B}
    (hk : ∀ b, ¬ Even b.card → k b = 0) (hr : ∀ x ∈ I, ∀ y ∈ I, r x = r y → x = y) (hm : ∀ x ∈ I, ∀ y ∈ I, c x < c y → r x < r y)
    (hp : ∀ J ⊆ I, p J = ∑ S ∈ bsets J, coef r k S J • g (rest J S)) (n : Nat) :
    ((List.range n).map (fun j => p (seg c I j))).prod =
      ∑ W ∈ (bsets (below c I n)).filter (fun W => ∀ b ∈ W, Mono c b), coef r k W (below c I n) • ((List.range n).map (fun j => g (rest (seg c I j) W))).prod := by
  induction n with
  | zero =>
    have e : below c I 0 = ∅ := by ext x; simp [below]
    rw [e]
    have : (bsets (∅ : Finset α)).filter (fun W => ∀ b ∈ W, Mono c b) = {∅} := by
      ext W
      rw [Finset.mem_filter, mem_bsets, Finset.mem_singleton]
      constructor
      · rintro ⟨⟨h1, h2, _⟩, _⟩
        by_contra hne
        obtain ⟨b, hb⟩ := Finset.nonempty_of_ne_empty hne
        obtain ⟨x, hx⟩ := h2 b hb
        exact absurd (h1 b hb hx) (Finset.notMem_empty x)
      · rintro rfl; simp
    rw [this, Finset.sum_singleton]
    simp [coef, coefL]
  | succ n ih =>
    rw [List.range_succ, List.map_append, List.prod_append, ih, List.map_singleton, List.prod_singleton, hp (seg c I n) (Finset.filter_subset _ _), Finset.sum_mul_sum,
      ← Finset.sum_product']
    have hlt := below_seg_lt hm n
    have hdis : Disjoint (below c I n) (seg c I n) := Finset.disjoint_left.2 (fun x hx hy => by have := hlt x hx x hy; omega)
    have hsub : ∀ b : Finset α, b.Nonempty → b ⊆ below c I n → ¬ b ⊆ seg c I n := by
      rintro b ⟨x, hx⟩ h1 h2
      exact Finset.disjoint_left.1 hdis (h1 hx) (h2 hx)
    refine Finset.sum_bij' (fun q _ => q.1 ∪ q.2) (fun W _ => (W.filter (fun b => b ⊆ below c I n), W.filter (fun b => b ⊆ seg c I n))) ?_ ?_ ?_ ?_ ?_
    · rintro ⟨W, C⟩ hq
      rw [Finset.mem_product, Finset.mem_filter] at hq
      obtain ⟨⟨hW, hw⟩, hC⟩ := hq
      dsimp only at hW hw hC ⊢
      obtain ⟨w1, w2, w3⟩ := mem_bsets.1 hW
      obtain ⟨c1, c2, c3⟩ := mem_bsets.1 hC
      have hx : ∀ b ∈ W, ∀ d ∈ C, Disjoint b d := fun b hb d hd =>
        Finset.disjoint_of_subset_left (w1 b hb) (Finset.disjoint_of_subset_right (c1 d hd) hdis)
      rw [below_succ]
      refine Finset.mem_filter.2 ⟨mem_bsets.2 ⟨?_, ?_, ?_⟩, ?_⟩
      · intro b hb
        rcases Finset.mem_union.1 hb with hb | hb
        · exact (w1 b hb).trans Finset.subset_union_left
        · exact (c1 b hb).trans Finset.subset_union_right
      · intro b hb
        rcases Finset.mem_union.1 hb with hb | hb
        · exact w2 b hb
        · exact c2 b hb
      · intro b hb b' hb' hne
        rcases Finset.mem_union.1 hb with hb | hb <;> rcases Finset.mem_union.1 hb' with hb' | hb'
        · exact w3 b hb b' hb' hne
        · exact hx b hb b' hb'
        · exact (hx b' hb' b hb).symm
        · exact c3 b hb b' hb' hne
      · intro b hb
        rcases Finset.mem_union.1 hb with hb | hb
        · exact hw b hb
        · intro x hx y hy
          have h1 := c1 b hb hx
          have h2 := c1 b hb hy
          simp only [seg, Finset.mem_filter] at h1 h2
          rw [h1.2, h2.2]
    · intro W hW
      obtain ⟨hW, hw⟩ := Finset.mem_filter.1 hW
      obtain ⟨w1, w2, w3⟩ := mem_bsets.1 hW
      refine Finset.mem_product.2 ⟨Finset.mem_filter.2 ⟨mem_bsets.2 ⟨?_, ?_, ?_⟩, ?_⟩, mem_bsets.2 ⟨?_, ?_, ?_⟩⟩
      · exact fun b hb => (Finset.mem_filter.1 hb).2
      · exact fun b hb => w2 b (Finset.mem_filter.1 hb).1
      · exact fun b hb b' hb' => w3 b (Finset.mem_filter.1 hb).1 b' (Finset.mem_filter.1 hb').1
      · exact fun b hb => hw b (Finset.mem_filter.1 hb).1
      · exact fun b hb => (Finset.mem_filter.1 hb).2
      · exact fun b hb => w2 b (Finset.mem_filter.1 hb).1
      · exact fun b hb b' hb' => w3 b (Finset.mem_filter.1 hb).1 b' (Finset.mem_filter.1 hb').1
    · rintro ⟨W, C⟩ hq
      rw [Finset.mem_product, Finset.mem_filter] at hq
      obtain ⟨⟨hW, hw⟩, hC⟩ := hq
      dsimp only at hW hw hC ⊢
      obtain ⟨w1, w2, w3⟩ := mem_bsets.1 hW
      obtain ⟨c1, c2, c3⟩ := mem_bsets.1 hC
      rw [Finset.filter_union, Finset.filter_union, Finset.filter_true_of_mem w1, Finset.filter_true_of_mem c1,
        Finset.filter_false_of_mem (fun b hb h => hsub b (c2 b hb) h (c1 b hb)), Finset.filter_false_of_mem (fun b hb => hsub b (w2 b hb) (w1 b hb)),
        Finset.union_empty, Finset.empty_union]
    · intro W hW
      obtain ⟨hW, hw⟩ := Finset.mem_filter.1 hW
      obtain ⟨w1, w2, w3⟩ := mem_bsets.1 hW
      dsimp only
      rw [← Finset.filter_or, Finset.filter_true_of_mem]
      exact fun b hb => mono_cases (hw b hb) (w1 b hb)
    · rintro ⟨W, C⟩ hq
      rw [Finset.mem_product, Finset.mem_filter] at hq
      obtain ⟨⟨hW, hw⟩, hC⟩ := hq
      dsimp only at hW hw hC ⊢
      obtain ⟨w1, w2, w3⟩ := mem_bsets.1 hW
      obtain ⟨c1, c2, c3⟩ := mem_bsets.1 hC
      have hx : ∀ b ∈ W, ∀ d ∈ C, Disjoint b d := fun b hb d hd =>
        Finset.disjoint_of_subset_left (w1 b hb) (Finset.disjoint_of_subset_right (c1 d hd) hdis)
      have hWC : Disjoint W C := Finset.disjoint_left.2 (fun b hb hb' => hsub b (w2 b hb) (w1 b hb) (c1 b hb'))
      have hu : W ∪ C ∈ bsets (below c I n ∪ seg c I n) := by
        refine mem_bsets.2 ⟨?_, ?_, ?_⟩
        · intro b hb
          rcases Finset.mem_union.1 hb with hb | hb
          · exact (w1 b hb).trans Finset.subset_union_left
          · exact (c1 b hb).trans Finset.subset_union_right
        · intro b hb
          rcases Finset.mem_union.1 hb with hb | hb
          · exact w2 b hb
          · exact c2 b hb
        · intro b hb b' hb' hne
          rcases Finset.mem_union.1 hb with hb | hb <;> rcases Finset.mem_union.1 hb' with hb' | hb'
          · exact w3 b hb b' hb' hne
          · exact hx b hb b' hb'
          · exact (hx b' hb' b hb).symm
          · exact c3 b hb b' hb' hne
      have hI : below c I n ∪ seg c I n ⊆ I := Finset.union_subset (Finset.filter_subset _ _) (Finset.filter_subset _ _)
      have hrest : rest (below c I n ∪ seg c I n) W = rest (below c I n) W ∪ seg c I n := by
        unfold rest
        rw [Finset.filter_union]
        congr 1
        apply Finset.filter_true_of_mem
        intro x hx b hb hxb
        exact Finset.disjoint_left.1 hdis (w1 b hb hxb) hx
      rw [below_succ, coef_union hu hWC hk (fun x hx y hy => hr x (hI hx) y (hI hy)), hrest]
      have e1 : coef r k W (below c I n ∪ seg c I n) = coef r k W (below c I n) :=
        coefL_left (fun b hb => w1 b (Finset.mem_toList.1 hb)) (bsets_pairwise hW) hlt
      have e2 : coef r k C (rest (below c I n) W ∪ seg c I n) = coef r k C (seg c I n) :=
        coefL_right (fun b hb => c1 b (Finset.mem_toList.1 hb)) (bsets_pairwise hC) (fun x hx => hlt x (mem_rest.1 hx).1) (fun b _ => hk b)
      rw [e1, e2, smul_mul_smul_comm, List.map_append, List.prod_append, List.map_singleton, List.prod_singleton]
      congr 2
      · apply congrArg
        apply List.map_congr_left
        intro j hj
        have hj : j < n := List.mem_range.1 hj
        congr 1
        ext x
        rw [mem_rest, mem_rest]
        constructor
        · rintro ⟨h1, h2⟩
          refine ⟨h1, fun b hb => ?_⟩
          rcases Finset.mem_union.1 hb with hb | hb
          · exact h2 b hb
          · intro hxb
            have := c1 b hb hxb
            simp only [seg, Finset.mem_filter] at this h1
            omega
        · rintro ⟨h1, h2⟩
          exact ⟨h1, fun b hb => h2 b (Finset.mem_union_left _ hb)⟩
      · congr 1
        ext x
        rw [mem_rest, mem_rest]
        constructor
        · rintro ⟨h1, h2⟩
          refine ⟨h1, fun b hb => ?_⟩
          rcases Finset.mem_union.1 hb with hb | hb
          · intro hxb
            exact Finset.disjoint_left.1 hdis (w1 b hb hxb) h1
          · exact h2 b hb
        · rintro ⟨h1, h2⟩
          exact ⟨h1, fun b hb => h2 b (Finset.mem_union_right _ hb)⟩

theorem rest_seg (c : α → Nat) (I : Finset α) (W : Finset (Finset α)) (j : Nat) : rest (seg c I j) W = seg c (rest I W) j := by
  ext x
  simp only [mem_rest, seg, Finset.mem_filter]
  tauto

theorem rest_rest (I : Finset α) (W C : Finset (Finset α)) : rest (rest I W) C = rest I (W ∪ C) := by
  ext x
  simp only [mem_rest, Finset.mem_union]
  constructor
  · rintro ⟨⟨h1, h2⟩, h3⟩
    exact ⟨h1, fun b hb => hb.elim (h2 b) (h3 b)⟩
  · rintro ⟨h1, h2⟩
    exact ⟨⟨h1, fun b hb => h2 b (Or.inl hb)⟩, fun b hb => h2 b (Or.inr hb)⟩

theorem rest_empty (I : Finset α) : rest I (∅ : Finset (Finset α)) = I := by
  ext x; simp [mem_rest]

theorem rest_subset (I : Finset α) (S : Finset (Finset α)) : rest I S ⊆ I := Finset.filter_subset _ _

theorem rest_card_lt {I : Finset α} {S : Finset (Finset α)} (h : S ∈ bsets I) (hne : S ≠ ∅) : (rest I S).card < I.card := by
  apply Finset.card_lt_card
  refine ⟨rest_subset I S, fun hc => ?_⟩
  obtain ⟨h1, h2, _⟩ := mem_bsets.1 h
  obtain ⟨b, hb⟩ := Finset.nonempty_of_ne_empty hne
  obtain ⟨x, hx⟩ := h2 b hb
  exact (mem_rest.1 (hc (h1 b hb hx))).2 b hb hx

theorem empty_mem_bsets (I : Finset α) : (∅ : Finset (Finset α)) ∈ bsets I := by
  rw [mem_bsets]; simp

theorem coef_empty (r : α → Int) (k : Finset α → R) (I : Finset α) : coef r k ∅ I = 1 := by simp [coef, coefL]

open Classical in
/-- **Generalised Wick theorem**, abstractly: let `p J` (the product of the operators in `J`) be the sum over all sets of blocks of
`J` of the coefficient times `g` (the normal product) of the rest. Then the product of the normal products of the
factors of `I` is the sum over the sets of blocks none of which lies within one factor. -/
theorem cross_sum {r : α → Int} {k : Finset α → R} {c : α → Nat} {p g : Finset α → B} {n : Nat} (hk : ∀ b, ¬ Even b.card → k b = 0) (I : Finset α)
    (hn : ∀ x ∈ I, c x < n) (hr : ∀ x ∈ I, ∀ y ∈ I, r x = r y → x = y) (hm : ∀ x ∈ I, ∀ y ∈ I, c x < c y → r x < r y)
    (hp : ∀ J ⊆ I, p J = ∑ S ∈ bsets J, coef r k S J • g (rest J S)) (hpp : ∀ J ⊆ I, p J = ((List.range n).map (fun j => p (seg c J j))).prod) :
    ((List.range n).map (fun j => g (seg c I j))).prod =
      ∑ S ∈ (bsets I).filter (fun S => ∀ b ∈ S, ¬ Mono c b), coef r k S I • g (rest I S) := by
  induction hN : I.card using Nat.strong_induction_on generalizing I with
  | _ N IH =>
    subst hN
    have hb : below c I n = I := Finset.filter_true_of_mem hn
    have h1 := hpp I (Finset.Subset.refl I)
    rw [within_sum hk hr hm hp n, hb, hp I (Finset.Subset.refl I), sum_split (Mono c)] at h1
    have hmem : (∅ : Finset (Finset α)) ∈ (bsets I).filter (fun W => ∀ b ∈ W, Mono c b) := Finset.mem_filter.2 ⟨empty_mem_bsets I, by simp⟩
    rw [← Finset.add_sum_erase _ _ hmem, ← Finset.add_sum_erase _ _ hmem] at h1
    have h2 : ∀ W ∈ ((bsets I).filter (fun W => ∀ b ∈ W, Mono c b)).erase ∅,
        (∑ C ∈ (bsets (rest I W)).filter (fun C => ∀ b ∈ C, ¬ Mono c b), coef r k (W ∪ C) I • g (rest I (W ∪ C))) =
          coef r k W I • ((List.range n).map (fun j => g (rest (seg c I j) W))).prod := by
      intro W hW
      obtain ⟨hne, hW⟩ := Finset.mem_erase.1 hW
      obtain ⟨hW, hw⟩ := Finset.mem_filter.1 hW
      have hs := rest_subset I W
      simp only [rest_seg]
      rw [IH _ (rest_card_lt hW hne) (rest I W) (fun x hx => hn x (hs hx)) (fun x hx y hy => hr x (hs hx) y (hs hy)) (fun x hx y hy => hm x (hs hx) y (hs hy))
        (fun J hJ => hp J (hJ.trans hs)) (fun J hJ => hpp J (hJ.trans hs)) rfl, Finset.smul_sum]
      apply Finset.sum_congr rfl
      intro C hC
      obtain ⟨hC, hc⟩ := Finset.mem_filter.1 hC
      rw [rest_rest, smul_smul, coef_union (W := W) (C := C) ?_ ?_ hk hr]
      · obtain ⟨w1, w2, w3⟩ := mem_bsets.1 hW
        obtain ⟨c1, c2, c3⟩ := mem_bsets.1 hC
        have hx : ∀ b ∈ W, ∀ c ∈ C, Disjoint b c := fun b hb c hc => Finset.disjoint_left.2 (fun x hx hx' => (mem_rest.1 (c1 c hc hx')).2 b hb hx)
        refine mem_bsets.2 ⟨?_, ?_, ?_⟩
        · intro b hb
          rcases Finset.mem_union.1 hb with hb | hb
          · exact w1 b hb
          · exact (c1 b hb).trans hs
        · intro b hb
          rcases Finset.mem_union.1 hb with hb | hb
          · exact w2 b hb
          · exact c2 b hb
        · intro b hb b' hb' hne
          rcases Finset.mem_union.1 hb with hb | hb <;> rcases Finset.mem_union.1 hb' with hb' | hb'
          · exact w3 b hb b' hb' hne
          · exact hx b hb b' hb'
          · exact (hx b' hb' b hb).symm
          · exact c3 b hb b' hb' hne
      · exact Finset.disjoint_left.2 (fun b hb hb' => hc b hb' (hw b hb))
    rw [Finset.sum_congr rfl h2] at h1
    have h3 := add_right_cancel h1
    simp only [rest_empty, coef_empty, one_smul, Finset.empty_union] at h3
    rw [← h3]

end
end Gno
end Wicked
