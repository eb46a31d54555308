import Verif.Proofs.WickGraphVal
/-! Sets of contractions as listings -/
namespace Wicked
open CppLt CppEq Rational
namespace Wick

/-- the block of a set of operators -/
def blk (L : List Slot) (b : Finset Slot) : Block := ⟨((creOf L b).headD ⟨0, 0, false, 0⟩).space, creOf L b, annOf L b⟩

theorem mem_creOf {L : List Slot} {b : Finset Slot} {x : Slot} : x ∈ creOf L b ↔ x ∈ L ∧ x ∈ b ∧ x.cre = true := by
  unfold creOf; simp [List.mem_filter]

theorem mem_annOf {L : List Slot} {b : Finset Slot} {x : Slot} : x ∈ annOf L b ↔ x ∈ L ∧ x ∈ b ∧ x.cre = false := by
  unfold annOf; simp [List.mem_filter]

theorem mem_blk {L : List Slot} {b : Finset Slot} {x : Slot} : x ∈ (blk L b).flat ↔ x ∈ L ∧ x ∈ b := by
  unfold blk Block.flat
  rw [List.mem_append, mem_creOf, mem_annOf]
  cases x.cre <;> simp

theorem nodup_blk {L : List Slot} (hn : L.Nodup) (b : Finset Slot) : (blk L b).flat.Nodup := by
  unfold blk Block.flat
  rw [List.nodup_append]
  refine ⟨hn.filter _, hn.filter _, ?_⟩
  intro x hx y hy he
  have h1 := (mem_creOf.1 hx).2.2
  have h2 := (mem_annOf.1 hy).2.2
  rw [he, h2] at h1; cases h1

theorem toFinset_blk {L : List Slot} {b : Finset Slot} (hb : b ⊆ L.toFinset) : (blk L b).flat.toFinset = b := by
  ext x
  rw [List.mem_toFinset, mem_blk]
  exact ⟨fun h => h.2, fun h => ⟨List.mem_toFinset.1 (hb h), h⟩⟩

theorem card_blk {L : List Slot} (hn : L.Nodup) {b : Finset Slot} (hb : b ⊆ L.toFinset) : b.card = (blk L b).flat.length := by
  conv_lhs => rw [← toFinset_blk hb]
  exact List.toFinset_card_of_nodup (nodup_blk hn b)

theorem card_cre {L : List Slot} (hn : L.Nodup) {b : Finset Slot} (hb : b ⊆ L.toFinset) :
    (b.filter (fun x => x.cre = true)).card = (creOf L b).length := by
  rw [← List.toFinset_card_of_nodup (l := creOf L b) (hn.filter _)]
  congr 1
  ext x
  rw [List.mem_toFinset, mem_creOf, Finset.mem_filter]
  exact ⟨fun h => ⟨List.mem_toFinset.1 (hb h.1), h⟩, fun h => h.2⟩

theorem card_ann {L : List Slot} (hn : L.Nodup) {b : Finset Slot} (hb : b ⊆ L.toFinset) :
    (b.filter (fun x => x.cre = false)).card = (annOf L b).length := by
  rw [← List.toFinset_card_of_nodup (l := annOf L b) (hn.filter _)]
  congr 1
  ext x
  rw [List.mem_toFinset, mem_annOf, Finset.mem_filter]
  exact ⟨fun h => ⟨List.mem_toFinset.1 (hb h.1), h⟩, fun h => h.2⟩

/-- the pair in a set of two operators, one of each kind -/
theorem blk_pair {L : List Slot} (hn : L.Nodup) {c a : Slot} (hc : c ∈ L) (ha : a ∈ L) (h1 : c.cre = true) (h2 : a.cre = false) :
    creOf L {c, a} = [c] ∧ annOf L {c, a} = [a] := by
  constructor
  · rw [← List.perm_singleton]
    refine (List.perm_ext_iff_of_nodup (l₁ := creOf L {c, a}) (hn.filter _) (List.nodup_singleton _)).2 ?_
    intro x
    rw [mem_creOf]
    simp only [Finset.mem_insert, Finset.mem_singleton, List.mem_singleton]
    constructor
    · rintro ⟨_, rfl | rfl, h⟩
      · rfl
      · rw [h2] at h; cases h
    · rintro rfl; exact ⟨hc, Or.inl rfl, h1⟩
  · rw [← List.perm_singleton]
    refine (List.perm_ext_iff_of_nodup (l₁ := annOf L {c, a}) (hn.filter _) (List.nodup_singleton _)).2 ?_
    intro x
    rw [mem_annOf]
    simp only [Finset.mem_insert, Finset.mem_singleton, List.mem_singleton]
    constructor
    · rintro ⟨_, rfl | rfl, h⟩
      · rw [h1] at h; cases h
      · rfl
    · rintro rfl; exact ⟨ha, Or.inr rfl, h2⟩

theorem contraction_blk {o : OSI} {m : Int} {ops : OperatorProduct} {b : Finset Slot}
    (hb : b ⊆ (slots o.spaces.length ops).toFinset) (h : IsContraction o m b) :
    BlockOK o (blk (slots o.spaces.length ops) b) ∧ ∀ x ∈ b, x.space = (blk (slots o.spaces.length ops) b).space := by
  have hn := nodup_slots o.spaces.length ops
  generalize slots o.spaces.length ops = L at *
  obtain ⟨s, hs, hsp, h⟩ := h
  have hlen : (creOf L b).length = (annOf L b).length ∧ 1 ≤ (creOf L b).length ∧ (o.spaceType s ≠ .ok .general → (creOf L b).length = 1) := by
    rcases h with ⟨ht, c, a, rfl, h1, h2, _⟩ | ⟨ht, a, c, rfl, h1, h2, _⟩ | ⟨ht, h1, h2, _⟩
    · have := blk_pair hn (List.mem_toFinset.1 (hb (by simp : c ∈ ({c, a} : Finset Slot)))) (List.mem_toFinset.1 (hb (by simp : a ∈ ({c, a} : Finset Slot)))) h1 h2
      rw [this.1, this.2]; simp
    · rw [Finset.pair_comm] at hb ⊢
      have := blk_pair hn (List.mem_toFinset.1 (hb (by simp : c ∈ ({c, a} : Finset Slot)))) (List.mem_toFinset.1 (hb (by simp : a ∈ ({c, a} : Finset Slot)))) h2 h1
      rw [this.1, this.2]; simp
    · rw [card_cre hn hb, card_ann hn hb] at h1
      rw [card_cre hn hb] at h2
      exact ⟨h1, h2, fun h => absurd ht h⟩
  have hhd : (blk L b).space = s := by
    unfold blk
    cases hc : creOf L b with
    | nil => rw [hc] at hlen; simp at hlen
    | cons c l =>
      simp only [List.headD_cons]
      exact hsp c (mem_creOf.1 (by rw [hc]; simp : c ∈ creOf L b)).2.1
  refine ⟨⟨by rw [hhd]; exact hs, ?_, ?_, hlen.1, hlen.2.1, by rw [hhd]; exact hlen.2.2⟩, by rw [hhd]; exact hsp⟩
  · intro x hx
    have := mem_creOf.1 hx
    exact ⟨this.2.2, by rw [hhd]; exact hsp x this.2.1⟩
  · intro x hx
    have := mem_annOf.1 hx
    exact ⟨this.2.2, by rw [hhd]; exact hsp x this.2.1⟩

theorem mem_leftOver {L : List Slot} {S : Finset (Finset Slot)} {x : Slot} : x ∈ leftOver L S ↔ x ∈ L ∧ ∀ b ∈ S, x ∉ b := by
  unfold leftOver; simp [List.mem_filter]

/-- a scheme is a listing -/
theorem scheme_listing {o : OSI} {m : Int} {ops : OperatorProduct} {S : Finset (Finset Slot)}
    (hsub : ∀ b ∈ S, b ⊆ (slots o.spaces.length ops).toFinset) (hcon : ∀ b ∈ S, IsContraction o m b)
    (hdis : ∀ b ∈ S, ∀ b' ∈ S, b ≠ b' → Disjoint b b') :
    IsListing o ops (S.toList.map (blk (slots o.spaces.length ops))) (leftOver (slots o.spaces.length ops) S) := by
  have hn := nodup_slots o.spaces.length ops
  refine ⟨?_, ?_⟩
  · intro b' hb'
    obtain ⟨b, hb, rfl⟩ := List.mem_map.1 hb'
    have hb := Finset.mem_toList.1 hb
    exact (contraction_blk (hsub b hb) (hcon b hb)).1
  · generalize slots o.spaces.length ops = L at *
    rw [List.perm_ext_iff_of_nodup]
    · intro x
      rw [List.mem_append, mem_leftOver, List.flatMap_map, List.mem_flatMap]
      constructor
      · rintro (⟨b, _, hx⟩ | h)
        · exact (mem_blk.1 hx).1
        · exact h.1
      · intro hx
        by_cases h : ∀ b ∈ S, x ∉ b
        · exact Or.inr ⟨hx, h⟩
        · push Not at h
          obtain ⟨b, hb, hxb⟩ := h
          exact Or.inl ⟨b, Finset.mem_toList.2 hb, mem_blk.2 ⟨hx, hxb⟩⟩
    · rw [List.nodup_append]
      refine ⟨?_, hn.filter _, ?_⟩
      · rw [List.flatMap_map, List.nodup_flatMap]
        refine ⟨fun b _ => nodup_blk hn b, ?_⟩
        refine List.Pairwise.imp_of_mem ?_ (Finset.nodup_toList S)
        intro b b' hb hb' hne x hx hx'
        exact Finset.disjoint_left.1 (hdis b (Finset.mem_toList.1 hb) b' (Finset.mem_toList.1 hb') hne) (mem_blk.1 hx).2 (mem_blk.1 hx').2
      · intro x hx y hy he
        subst he
        rw [List.flatMap_map, List.mem_flatMap] at hx
        obtain ⟨b, hb, hx⟩ := hx
        exact (mem_leftOver.1 hy).2 b (Finset.mem_toList.1 hb) (mem_blk.1 hx).2
    · exact hn

/-! ### the value of a scheme -/

theorem orderSign_eq (L P : List Slot) : orderSign L P = sgR (posZ L) P := by
  induction P with
  | nil => rfl
  | cons y P ih =>
    rw [orderSign, ih]
    unfold sgR
    rw [pairProd]
    congr 1
    induction P with
    | nil => rfl
    | cons z P ih2 =>
      clear ih
      have key : ∀ Q : List Slot, (-1 : Int) ^ (Q.countP (fun z => decide (L.idxOf z < L.idxOf y))) =
          (Q.map (fun b => if posZ L b < posZ L y then -1 else (1 : Int))).prod := by
        intro Q
        induction Q with
        | nil => rfl
        | cons z Q ih =>
          rw [List.countP_cons, List.map_cons, List.prod_cons, ← ih]
          unfold posZ
          by_cases h : L.idxOf z < L.idxOf y
          · simp [h, pow_succ]
          · simp [h]
      exact key _

/-- the sign of a list of lists and a rest -/
theorem sgR_flat {α β : Type _} (r : α → Int) (f : β → List α) (bs : List β) (rs : List α) :
    sgR r (bs.flatMap f ++ rs) =
      (bs.map (fun b => sgR r (f b))).prod * ((bs.map (fun b => crossSg r (f b) rs)).prod *
        pairProd (fun b b' => crossSg r (f b) (f b')) bs * sgR r rs) := by
  induction bs with
  | nil => simp [pairProd]
  | cons b bs ih =>
    rw [List.flatMap_cons, List.append_assoc, sgR_app, ih, crossSg_append_right, crossSg_flatMap]
    simp only [List.map_cons, List.prod_cons, pairProd]
    ring

theorem conOrder_perm {L : List Slot} (hn : L.Nodup) (b : Finset Slot) : (conOrder L b).Perm (blk L b).flat := by
  unfold conOrder
  split
  · rw [List.perm_ext_iff_of_nodup (hn.filter _) (nodup_blk hn b)]
    intro x
    rw [mem_blk]; simp [List.mem_filter]
  · exact List.Perm.refl _

section
variable {Ω R A : Type} [Inhabited Ω] [DecidableEq Ω] [CommRing R] [Ring A] [Algebra R A]

theorem con_value {o : OSI} {m : Int} {ops : OperatorProduct} {b : Finset Slot} (v : OrbSystem Ω R A) (x : Slot → Ω)
    (hb : b ⊆ (slots o.spaces.length ops).toFinset) (h : IsContraction o m b) :
    ((sgR (posZ (slots o.spaces.length ops)) (conOrder (slots o.spaces.length ops) b) : Int) : R) * conVal v o (slots o.spaces.length ops) x b =
      ((sgR (posZ (slots o.spaces.length ops)) (blk (slots o.spaces.length ops) b).flat : Int) : R) *
        bval v o (slots o.spaces.length ops) x (blk (slots o.spaces.length ops) b) := by
  have hn := nodup_slots o.spaces.length ops
  have hbef : ∀ x ∈ slots o.spaces.length ops, ∀ y ∈ slots o.spaces.length ops, x.op < y.op →
      posZ (slots o.spaces.length ops) x < posZ (slots o.spaces.length ops) y := by
    intro x hx y hy hlt
    rw [posZ_bef hx hy]; exact Or.inl hlt
  obtain ⟨hok, hsp⟩ := contraction_blk hb h
  generalize slots o.spaces.length ops = L at *
  have hcard := card_blk hn hb
  have hlen := hok.len
  have hfl : (blk L b).flat.length = (creOf L b).length + (annOf L b).length := by unfold blk Block.flat; simp
  by_cases h2 : b.card = 2
  · -- a pair
    obtain ⟨c, hc⟩ : ∃ c, creOf L b = [c] := List.length_eq_one_iff.1 (by
      have : (creOf L b).length = (annOf L b).length := hlen
      omega)
    obtain ⟨a, ha⟩ : ∃ a, annOf L b = [a] := List.length_eq_one_iff.1 (by
      have : (creOf L b).length = (annOf L b).length := hlen
      omega)
    have hcm := mem_creOf.1 (by rw [hc]; simp : c ∈ creOf L b)
    have ham := mem_annOf.1 (by rw [ha]; simp : a ∈ annOf L b)
    have hne : posZ L c ≠ posZ L a := by
      intro he
      have := posZ_inj hcm.1 he
      have h1 := hcm.2.2
      rw [this, ham.2.2] at h1; cases h1
    have hs1 : sgR (posZ L) (conOrder L b) = 1 := by
      apply sgR_sorted
      unfold conOrder
      rw [if_pos h2]
      exact (posZ_sorted hn).sublist List.filter_sublist
    have hflat : (blk L b).flat = [c, a] := by unfold blk Block.flat; simp [hc, ha]
    have hs2 : sgR (posZ L) [c, a] = if posZ L a < posZ L c then -1 else 1 := by
      simp [sgR, pairProd]
    have hspc : (blk L b).space = c.space := (hsp c hcm.2.1).symm
    have hbc : (blk L b).cre = [c] := hc
    have hba : (blk L b).ann = [a] := ha
    rw [hs1, hflat, hs2]
    unfold conVal bval
    rw [hc, ha, hspc, hbc, hba]
    obtain ⟨s, hs, hsp', h⟩ := h
    have hcs : c.space = s := hsp' c hcm.2.1
    dsimp only
    rw [hcs]
    have pairs : ∀ c' a' : Slot, b = {c', a'} → c'.cre = true → a'.cre = false → c = c' ∧ a = a' := by
      intro c' a' he h1 h2
      have hc1 := hcm.2.1
      have ha1 := ham.2.1
      rw [he] at hc1 ha1
      simp only [Finset.mem_insert, Finset.mem_singleton] at hc1 ha1
      constructor
      · rcases hc1 with h | h
        · exact h
        · rw [← h, hcm.2.2] at h2; cases h2
      · rcases ha1 with h | h
        · rw [← h, ham.2.2] at h1; cases h1
        · exact h
    rcases h with ⟨ht, c', a', he, h1, h3, h4⟩ | ⟨ht, a', c', he, h1, h3, h4⟩ | ⟨ht, _⟩
    · obtain ⟨rfl, rfl⟩ := pairs c' a' he h1 h3
      have := hbef c hcm.1 a ham.1 h4
      rw [ht, if_neg (show ¬ posZ L a < posZ L c by omega)]
      have e : (x a = x c) = (x c = x a) := propext ⟨Eq.symm, Eq.symm⟩
      simp only [List.headD_cons, e]
    · rw [Finset.pair_comm] at he
      obtain ⟨rfl, rfl⟩ := pairs c' a' he h3 h1
      have := hbef a ham.1 c hcm.1 h4
      rw [ht, if_pos (show posZ L a < posZ L c by omega)]
      simp only [List.headD_cons, Int.cast_one, Int.cast_neg, neg_mul_neg]
      rfl
    · rw [ht]
      have hp : L.idxOf c < L.idxOf a ↔ posZ L c < posZ L a := by unfold posZ; omega
      simp only [List.length_singleton, List.headD_cons, List.map_cons, List.map_nil, List.reverse_singleton, if_true, hp]
      by_cases h5 : posZ L c < posZ L a
      · rw [if_neg (show ¬ posZ L a < posZ L c by omega), if_pos h5, if_pos h5]
      · rw [if_pos (show posZ L a < posZ L c by omega), if_neg h5, if_neg h5]
        simp
  · -- a larger contraction
    have h3 : conOrder L b = (blk L b).flat := by unfold conOrder; rw [if_neg h2]; rfl
    rw [h3]
    congr 1
    have hgen : o.spaceType (blk L b).space = .ok .general := by
      by_contra hne
      have := hok.one hne
      have e1 : (blk L b).cre = creOf L b := rfl
      have e2 : (blk L b).ann = annOf L b := rfl
      rw [e1] at this hlen; rw [e2] at hlen
      omega
    have e1 : (blk L b).cre = creOf L b := rfl
    have e2 : (blk L b).ann = annOf L b := rfl
    unfold conVal bval
    rw [hgen, e1, e2]
    rw [e1, e2] at hlen
    simp only
    rw [if_neg (by omega)]
    split
    · rename_i c a hc ha
      rw [hc, ha] at hfl; simp at hfl; omega
    · simp only [List.map_reverse]

theorem scheme_value {o : OSI} {m : Int} {ops : OperatorProduct} {S : Finset (Finset Slot)} (v : OrbSystem Ω R A) (x : Slot → Ω)
    (hsub : ∀ b ∈ S, b ⊆ (slots o.spaces.length ops).toFinset) (hcon : ∀ b ∈ S, IsContraction o m b) :
    schemeTerm v o (slots o.spaces.length ops) x S =
      listVal v o (slots o.spaces.length ops) x (S.toList.map (blk (slots o.spaces.length ops))) (leftOver (slots o.spaces.length ops) S) := by
  have hn := nodup_slots o.spaces.length ops
  have hv : ∀ b ∈ S.toList, _ := fun b hb => con_value (o := o) (m := m) (ops := ops) v x (hsub b (Finset.mem_toList.1 hb)) (hcon b (Finset.mem_toList.1 hb))
  generalize slots o.spaces.length ops = L at *
  unfold schemeTerm listVal
  congr 1
  rw [orderSign_eq, sgR_flat, List.flatMap_map, sgR_flat]
  have hc : (S.toList.map (fun b => crossSg (posZ L) (conOrder L b) (leftOver L S))) = S.toList.map (fun b => crossSg (posZ L) (blk L b).flat (leftOver L S)) :=
    List.map_congr_left (fun b _ => crossSg_perm _ (conOrder_perm hn b) (List.Perm.refl _))
  have hp : (fun b b' => crossSg (posZ L) (conOrder L b) (conOrder L b')) = fun b b' => crossSg (posZ L) (blk L b).flat (blk L b').flat := by
    funext b b'; exact crossSg_perm _ (conOrder_perm hn b) (conOrder_perm hn b')
  rw [hc, hp, ← Finset.prod_map_toList]
  generalize (S.toList.map (fun b => crossSg (posZ L) (blk L b).flat (leftOver L S))).prod * _ * _ = K
  simp only [Int.cast_mul]
  have key : ∀ l : List (Finset Slot), (∀ b ∈ l, ((sgR (posZ L) (conOrder L b) : Int) : R) * conVal v o L x b =
      ((sgR (posZ L) (blk L b).flat : Int) : R) * bval v o L x (blk L b)) →
      (((l.map (fun b => sgR (posZ L) (conOrder L b))).prod : Int) : R) * (l.map (conVal v o L x)).prod =
      (((l.map (fun b => sgR (posZ L) (blk L b).flat)).prod : Int) : R) * ((l.map (blk L)).map (bval v o L x)).prod := by
    intro l
    induction l with
    | nil => intro _; simp
    | cons b l ih =>
      intro h
      simp only [List.map_cons, List.prod_cons, Int.cast_mul]
      have h1 := h b (by simp)
      have h2 := ih (fun b' hb' => h b' (by simp [hb']))
      calc _ = (((sgR (posZ L) (conOrder L b) : Int) : R) * conVal v o L x b) * ((((l.map (fun b => sgR (posZ L) (conOrder L b))).prod : Int) : R) * (l.map (conVal v o L x)).prod) := by ring
        _ = _ := by rw [h1, h2]; ring
  have := key _ hv
  linear_combination (K : R) * this

end
end Wick
end Wicked
