import Verif.Proofs.WickPattern
import Verif.Props.WickGraph
/-! Schemes are the realisations of composite contractions -/
namespace Wicked
open CppLt CppEq Rational
namespace Wick
open scoped Classical

theorem mem_realisations {ns : Nat} {ops : OperatorProduct} {cs : CContr} {S : Finset (Finset Slot)} :
    S ∈ realisations ns ops cs ↔ (∀ b ∈ S, b ⊆ (slots ns ops).toFinset) ∧ (∀ b ∈ S, ∀ b' ∈ S, b ≠ b' → Disjoint b b') ∧
      S.val.map legCount = (cs.map elegs : Multiset (Nat × Nat × Bool → Nat)) := by
  unfold realisations
  rw [Finset.mem_filter, Finset.mem_powerset]
  constructor
  · rintro ⟨h1, h2⟩; exact ⟨fun b hb => Finset.mem_powerset.1 (h1 hb), h2⟩
  · rintro ⟨h1, h2⟩; exact ⟨fun b hb => Finset.mem_powerset.2 (h1 b hb), h2⟩

theorem mem_schemes {o : OSI} {m : Int} {ops : OperatorProduct} {minr maxr : Int} {S : Finset (Finset Slot)} :
    S ∈ schemes o m ops minr maxr ↔ IsScheme o m ops minr maxr S := by
  unfold schemes
  rw [Finset.mem_filter, Finset.mem_powerset]
  constructor
  · exact fun h => h.2
  · exact fun h => ⟨fun b hb => Finset.mem_powerset.2 (h.1 b hb), h⟩

theorem real_perm {ns : Nat} {ops : OperatorProduct} {cs : CContr} {S : Finset (Finset Slot)} (h : S ∈ realisations ns ops cs) :
    (S.toList.map legCount).Perm (cs.map elegs) := by
  have := (mem_realisations.1 h).2.2
  rw [← Multiset.coe_eq_coe, ← this, ← Multiset.map_coe, Finset.coe_toList]

/-- number of operators of a contraction, by kinds -/
theorem card_legs {ns : Nat} {ops : OperatorProduct} {b : Finset Slot} (hb : b ⊆ (slots ns ops).toFinset) :
    b.card = ∑ k ∈ kinds ns ops.length, legCount b k := by
  rw [Finset.card_eq_sum_card_fiberwise (f := Slot.cls) (t := kinds ns ops.length)]
  · apply Finset.sum_congr rfl
    intro k _
    unfold legCount
    congr 1
  · intro x hx
    exact Finset.mem_coe.2 (cls_mem_kinds (hb (Finset.mem_coe.1 hx)))

theorem sum_kinds {ns n : Nat} (f : Nat × Nat × Bool → Nat) :
    ((∑ k ∈ kinds ns n, f k : Nat) : Int) = ((List.range n).map (fun A => ((List.range ns).map (fun s => (f (A, s, true) : Int) + (f (A, s, false) : Int))).sum)).sum := by
  unfold kinds
  rw [Finset.sum_product]
  have h1 : ∀ (g : Nat → Nat) (n : Nat), ((∑ A ∈ Finset.range n, g A : Nat) : Int) = ((List.range n).map (fun A => (g A : Int))).sum := by
    intro g n
    induction n with
    | zero => simp
    | succ n ih => rw [Finset.sum_range_succ, List.range_succ, List.map_append, List.sum_append, Int.natCast_add, ih]; simp
  rw [h1]
  congr 1
  apply List.map_congr_left
  intro A _
  rw [Finset.sum_product, h1]
  congr 1

theorem numOps_legs {ns n : Nat} (h8 : ns ≤ 8) {e : EContr} (he : Good ns n e) : e.numOps = ((∑ k ∈ kinds ns n, elegs e k : Nat) : Int) := by
  rw [sum_kinds]
  unfold EContr.numOps
  rw [sumNumOps_range, he.1]
  congr 1
  apply List.map_congr_left
  intro A hA
  have hA := List.mem_range.1 hA
  rw [numOps_range h8 _ (fun t ht => (he.2 A hA t).2.2 ht)]
  congr 1
  apply List.map_congr_left
  intro s _
  have := he.2 A hA s
  unfold elegs
  simp only [if_true, Bool.false_eq_true, if_false]
  omega

/-- the number of operators left over -/
theorem real_left {ns : Nat} {ops : OperatorProduct} (h8 : ns ≤ 8) (hv : ∀ p ∈ ops, p.Valid ns) {cs : CContr}
    (hg : ∀ e ∈ cs, Good ns ops.length e) {S : Finset (Finset Slot)} (h : S ∈ realisations ns ops cs) :
    ((slots ns ops).length : Int) - ((∑ b ∈ S, b.card : Nat) : Int) = uncontracted ns ops cs := by
  rw [uncontracted_eq hv h8 cs hg, sumNumOps_totalOps hv h8, length_slots hv]
  congr 1
  have h1 : ∑ b ∈ S, b.card = (S.toList.map (fun b => ∑ k ∈ kinds ns ops.length, legCount b k)).sum := by
    rw [← Finset.sum_map_toList]
    congr 1
    apply List.map_congr_left
    intro b hb
    exact card_legs ((mem_realisations.1 h).1 b (Finset.mem_toList.1 hb))
  have h2 : (S.toList.map (fun b => ∑ k ∈ kinds ns ops.length, legCount b k)).sum = (cs.map (fun e => ∑ k ∈ kinds ns ops.length, elegs e k)).sum := by
    have := ((real_perm h).map (fun f : Nat × Nat × Bool → Nat => ∑ k ∈ kinds ns ops.length, f k)).sum_eq
    simpa only [List.map_map, Function.comp_def] using this
  rw [h1, h2]
  clear h1 h2 h
  induction cs with
  | nil => rfl
  | cons e cs ih =>
    rw [List.map_cons, List.sum_cons, List.map_cons, List.sum_cons, Int.natCast_add, ih (fun e' he' => hg e' (by simp [he'])), numOps_legs h8 (hg e (by simp))]

theorem pickAt_mem {el : List EContr} {cv : List Int} (h : ∀ c ∈ cv, 0 ≤ c ∧ c < el.length) : ∀ e ∈ pickAt el cv, e ∈ el := by
  intro e he
  obtain ⟨c, hc, rfl⟩ := List.mem_map.1 he
  have := h c hc
  exact elAt_mem (c := c) (by omega)

section
variable {o : OSI} {m : Int} {ops : OperatorProduct} (h8 : o.spaces.length ≤ 8) (hv : ∀ p ∈ ops, p.Valid o.spaces.length)
  {el : List EContr} (hel : ∀ e, e ∈ el ↔ IsElementary o m ops e) {minr maxr : Int}
include h8 hv hel

theorem scheme_of_real {cv : List Int} (hc : IsComposite o.spaces.length ops el minr maxr cv) {S : Finset (Finset Slot)}
    (h : S ∈ realisations o.spaces.length ops (pickAt el cv)) : IsScheme o m ops minr maxr S := by
  have hm := mem_realisations.1 h
  have hin := pickAt_mem hc.range
  have hleft := real_left h8 hv (fun e he => evaluable_good (elementary_evaluable ((hel e).1 (hin e he)))) h
  refine ⟨hm.1, ?_, hm.2.1, by rw [hleft]; exact hc.window.1, by rw [hleft]; exact hc.window.2⟩
  intro b hb
  have : legCount b ∈ (pickAt el cv).map elegs := (real_perm h).mem_iff.1 (List.mem_map_of_mem (Finset.mem_toList.2 hb))
  obtain ⟨e, he, hee⟩ := List.mem_map.1 this
  exact elementary_contraction (hm.1 b hb) ((hel e).1 (hin e he)) hee.symm

theorem real_of_scheme (S : Finset (Finset Slot)) (h : IsScheme o m ops minr maxr S) :
    ∃ cv, IsComposite o.spaces.length ops el minr maxr cv ∧ S ∈ realisations o.spaces.length ops (pickAt el cv) := by
  obtain ⟨hsub, hcon, hdis, hw1, hw2⟩ := h
  have hpat : ∀ b ∈ S, patOf ops.length b ∈ el := fun b hb => (hel _).2 (contraction_elementary h8 hv (hsub b hb) (hcon b hb))
  let cv : List Int := ((S.toList.map (fun b => el.idxOf (patOf ops.length b))).insertionSort (· ≤ ·)).map (fun n : Nat => (n : Int))
  have hcvm : ∀ c ∈ cv, 0 ≤ c ∧ c < el.length := by
    intro c hc
    obtain ⟨n, hn, rfl⟩ := List.mem_map.1 hc
    rw [List.mem_insertionSort] at hn
    obtain ⟨b, hb, rfl⟩ := List.mem_map.1 hn
    have := List.idxOf_lt_length_of_mem (hpat b (Finset.mem_toList.1 hb))
    omega
  have hpk : (pickAt el cv).Perm (S.toList.map (patOf ops.length)) := by
    have h1 : (pickAt el cv).Perm ((S.toList.map (fun b => el.idxOf (patOf ops.length b))).map (fun n => el.getD n [])) := by
      unfold pickAt
      rw [List.map_map]
      exact (List.perm_insertionSort _ _).map _
    refine h1.trans ?_
    rw [List.map_map]
    apply List.Perm.of_eq
    apply List.map_congr_left
    intro b hb
    have hb := hpat b (Finset.mem_toList.1 hb)
    simp only [Function.comp_apply]
    rw [List.getD_eq_getElem?_getD, List.getElem?_eq_getElem (List.idxOf_lt_length_of_mem hb), List.getElem_idxOf]; rfl
  have hreal : S ∈ realisations o.spaces.length ops (pickAt el cv) := by
    rw [mem_realisations]
    refine ⟨hsub, hdis, ?_⟩
    rw [← Finset.coe_toList, Multiset.map_coe, Multiset.coe_eq_coe]
    refine List.Perm.trans (List.Perm.of_eq ?_) (hpk.symm.map _)
    rw [List.map_map]
    apply List.map_congr_left
    intro b hb
    exact (funext (elegs_patOf (hsub b (Finset.mem_toList.1 hb)) h8)).symm
  have hin := pickAt_mem hcvm
  have hgood : ∀ e ∈ pickAt el cv, Good o.spaces.length ops.length e := fun e he => evaluable_good (elementary_evaluable ((hel e).1 (hin e he)))
  have hleft := real_left h8 hv hgood hreal
  refine ⟨cv, ⟨?_, hcvm, ?_, by rw [hleft] at hw1 hw2; exact ⟨hw1, hw2⟩⟩, hreal⟩
  · rw [List.pairwise_map]
    refine (List.pairwise_insertionSort (· ≤ ·) _).imp ?_
    intro a b h; exact_mod_cast h
  · -- available
    intro A hA s hs
    have hAm : opAt ops A ∈ ops := by unfold opAt; rw [List.getD_eq_getElem?_getD, List.getElem?_eq_getElem hA]; exact List.getElem_mem _
    have hnn := hv _ hAm s
    have key : ∀ c : Bool, ((pickAt el cv).map (fun e => elegs e (A, s, c))).sum ≤ (if c then (opAt ops A).gm.cre s else (opAt ops A).gm.ann s).toNat := by
      intro c
      have h1 : ((pickAt el cv).map (fun e => elegs e (A, s, c))).sum = (S.toList.map (fun b => legCount b (A, s, c))).sum := by
        have := ((real_perm hreal).map (fun f : Nat × Nat × Bool → Nat => f (A, s, c))).sum_eq
        simpa only [List.map_map, Function.comp_def] using this.symm
      rw [h1, Finset.sum_map_toList, ← legCount_slots hA hs]
      unfold legCount
      rw [← Finset.card_biUnion]
      · apply Finset.card_le_card
        intro x hx
        obtain ⟨b, hb, hx⟩ := Finset.mem_biUnion.1 hx
        have hx := Finset.mem_filter.1 hx
        exact Finset.mem_filter.2 ⟨hsub b hb hx.1, hx.2⟩
      · intro b hb b' hb' hne
        exact Finset.disjoint_filter_filter (hdis b hb b' hb' hne)
    unfold takenCre takenAnn
    have k1 := key true
    have k2 := key false
    unfold elegs at k1 k2
    simp only [if_true] at k1
    simp only [Bool.false_eq_true, if_false] at k2
    have e1 := sum_toNat' (pickAt el cv) (fun e => (gmAt e A).cre s) (fun e he => ((hgood e he).2 A hA s).1)
    have e2 := sum_toNat' (pickAt el cv) (fun e => (gmAt e A).ann s) (fun e he => ((hgood e he).2 A hA s).2.1)
    rw [← e1, ← e2]
    omega

theorem real_unique (hnd : el.Nodup) {cv cv' : List Int} (hc : IsComposite o.spaces.length ops el minr maxr cv)
    (hc' : IsComposite o.spaces.length ops el minr maxr cv') {S : Finset (Finset Slot)}
    (h : S ∈ realisations o.spaces.length ops (pickAt el cv)) (h' : S ∈ realisations o.spaces.length ops (pickAt el cv')) : cv = cv' := by
  have hp : ((pickAt el cv).map elegs).Perm ((pickAt el cv').map elegs) := (real_perm h).symm.trans (real_perm h')
  have hgood : ∀ e ∈ el, Good o.spaces.length ops.length e := fun e he => evaluable_good (elementary_evaluable ((hel e).1 he))
  have hinj : ∀ a : Int, 0 ≤ a → a < el.length → ∀ b : Int, 0 ≤ b → b < el.length → elegs (el.getD a.toNat []) = elegs (el.getD b.toNat []) → a = b := by
    intro a ha ha' b hb hb' he
    have h1 := elegs_inj h8 (hgood _ (elAt_mem (c := a) (by omega))) (hgood _ (elAt_mem (c := b) (by omega))) he
    unfold elAt at h1
    rw [List.getD_eq_getElem?_getD, List.getD_eq_getElem?_getD, List.getElem?_eq_getElem (by omega), List.getElem?_eq_getElem (by omega)] at h1
    simp only [Option.getD_some] at h1
    have := (List.Nodup.getElem_inj_iff hnd).1 h1
    omega
  have hperm : cv.Perm cv' := by
    unfold pickAt at hp
    rw [List.map_map, List.map_map] at hp
    rw [List.perm_iff_count]
    intro c
    by_cases hcr : 0 ≤ c ∧ c < el.length
    · have e1 := count_map_inj (elegs ∘ fun c : Int => el.getD c.toNat []) cv c (fun b hb he => hinj b (hc.range b hb).1 (hc.range b hb).2 c hcr.1 hcr.2 he)
      have e2 := count_map_inj (elegs ∘ fun c : Int => el.getD c.toNat []) cv' c (fun b hb he => hinj b (hc'.range b hb).1 (hc'.range b hb).2 c hcr.1 hcr.2 he)
      have e3 := hp.count_eq ((elegs ∘ fun c : Int => el.getD c.toNat []) c)
      calc cv.count c = _ := by convert e1.symm
        _ = _ := by convert e3
        _ = _ := by convert e2
    · rw [List.count_eq_zero.2 (fun h => hcr (hc.range c h)), List.count_eq_zero.2 (fun h => hcr (hc'.range c h))]
  exact hperm.eq_of_pairwise (fun a b _ _ h1 h2 => Int.le_antisymm h1 h2) hc.sorted hc'.sorted

/-- sums over schemes are sums over composite contractions and their realisations -/
theorem sum_schemes (hnd : el.Nodup) {L : List (List Int)} (hLn : L.Nodup) (hL : ∀ cv, cv ∈ L ↔ IsComposite o.spaces.length ops el minr maxr cv)
    {M : Type} [AddCommMonoid M] (F : Finset (Finset Slot) → M) :
    ∑ S ∈ schemes o m ops minr maxr, F S = (L.map (fun cv => ∑ S ∈ realisations o.spaces.length ops (pickAt el cv), F S)).sum := by
  have h1 : schemes o m ops minr maxr = L.toFinset.biUnion (fun cv => realisations o.spaces.length ops (pickAt el cv)) := by
    ext S
    rw [mem_schemes, Finset.mem_biUnion]
    constructor
    · intro h
      obtain ⟨cv, hc, hS⟩ := real_of_scheme h8 hv hel S h
      exact ⟨cv, List.mem_toFinset.2 ((hL cv).2 hc), hS⟩
    · rintro ⟨cv, hc, hS⟩
      exact scheme_of_real h8 hv hel ((hL cv).1 (List.mem_toFinset.1 hc)) hS
  rw [h1, Finset.sum_biUnion]
  · rw [List.sum_toFinset _ hLn]
  · intro cv hcv cv' hcv' hne
    rw [Function.onFun, Finset.disjoint_left]
    intro S h h'
    exact hne (real_unique h8 hv hel hnd ((hL cv).1 (List.mem_toFinset.1 (Finset.mem_coe.1 hcv))) ((hL cv').1 (List.mem_toFinset.1 (Finset.mem_coe.1 hcv'))) h h')

end

/-- a realisation, in the order of the contractions -/
theorem real_match {o : OSI} {m : Int} {ops : OperatorProduct} {cs : CContr} (hev : ∀ e ∈ cs, Evaluable o ops.length e) {S : Finset (Finset Slot)}
    (h : S ∈ realisations o.spaces.length ops cs) (hcon : ∀ b ∈ S, IsContraction o m b) :
    ∃ bs1, (S.toList.map (blk (slots o.spaces.length ops))).Perm bs1 ∧ List.Forall₂ (BPat o.spaces.length) cs bs1 := by
  obtain ⟨l, hl, he⟩ := lift_perm legCount _ S.toList (real_perm h)
  refine ⟨l.map (blk (slots o.spaces.length ops)), hl.map _, ?_⟩
  have hsub := (mem_realisations.1 h).1
  have hn := nodup_slots o.spaces.length ops
  have key : ∀ (l : List (Finset Slot)) (cs : CContr), (∀ b ∈ l, b ⊆ (slots o.spaces.length ops).toFinset) → (∀ b ∈ l, IsContraction o m b) →
      (∀ e ∈ cs, Evaluable o ops.length e) → l.map legCount = cs.map elegs →
      List.Forall₂ (BPat o.spaces.length) cs (l.map (blk (slots o.spaces.length ops))) := by
    intro l
    induction l with
    | nil => intro cs _ _ _ h; cases cs with
      | nil => exact .nil
      | cons _ _ => simp at h
    | cons b l ih =>
      intro cs h1 h2 h3 h4
      cases cs with
      | nil => simp at h4
      | cons e cs =>
        simp only [List.map_cons, List.cons.injEq] at h4
        refine .cons ?_ (ih cs (fun b hb => h1 b (by simp [hb])) (fun b hb => h2 b (by simp [hb])) (fun e he => h3 e (by simp [he])) h4.2)
        have hbs := h1 b (by simp)
        obtain ⟨hok, hsp⟩ := contraction_blk hbs (h2 b (by simp))
        constructor
        · obtain ⟨s, c, a, k, hs, hL, hnn, hc, ha, hk, _⟩ := h3 e (by simp)
          rw [(legs_spaces hs hL hnn (by omega)).2]
          have hpos := hok.pos
          obtain ⟨y, hy⟩ : ∃ y, y ∈ (blk (slots o.spaces.length ops) b).cre := List.exists_mem_of_length_pos (by omega)
          have hyb : y ∈ b := (mem_blk.1 (List.mem_append_left _ hy)).2
          rw [← hsp y hyb]
          exact ((legs_of_elegs hL h4.1).1 y hyb).1
        · intro k
          rw [← h4.1]
          unfold legCount
          rw [List.count_eq_countP, List.countP_map, List.countP_eq_length_filter]
          rw [← List.toFinset_card_of_nodup ((nodup_blk hn b).filter _)]
          congr 1
          ext x
          rw [List.mem_toFinset, List.mem_filter, Finset.mem_filter, mem_blk]
          have : x ∈ b → x ∈ slots o.spaces.length ops := fun hx => List.mem_toFinset.1 (hbs hx)
          simp [Slot.cls]
          tauto
  exact key l cs (fun b hb => hsub b (Finset.mem_toList.1 (hl.mem_iff.2 hb))) (fun b hb => hcon b (Finset.mem_toList.1 (hl.mem_iff.2 hb))) hev he

theorem overcount_eq {ns : Nat} (h8 : ns ≤ 8) {ops : OperatorProduct} {cs : CContr} (hg : ∀ e ∈ cs, Good ns ops.length e) {S : Finset (Finset Slot)}
    (h : S ∈ realisations ns ops cs) : overcount S = ∏ e ∈ cs.toFinset, (cs.count e - 1).factorial := by
  have hm := (mem_realisations.1 h).2.2
  have e := prod_count_inj elegs cs (fun e he e' he' hee => elegs_inj h8 (hg e he) (hg e' he') hee) (fun n => (n - 1).factorial)
  rw [← hm] at e
  refine Eq.trans ?_ (Eq.trans e (Finset.prod_congr rfl (fun x _ => by congr; exact lawful_beq_subsingleton _ _)))
  unfold overcount
  apply Finset.prod_congr
  · ext k
    simp [Multiset.mem_toFinset]
  · intro k _
    rw [Multiset.count_map]
    have : (S.filter (fun b => legCount b = k)).card = (Multiset.filter (fun a => k = legCount a) S.val).card := by
      rw [Finset.card_def, Finset.filter_val]
      congr 1
      apply Multiset.filter_congr
      intro b _
      exact ⟨Eq.symm, Eq.symm⟩
    rw [this]

end Wick
end Wicked
