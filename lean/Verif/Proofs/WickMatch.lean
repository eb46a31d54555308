import Verif.Proofs.WickRel
import Verif.Spec.WickSum
import Mathlib.Data.List.Forall2
/-! Listings with the same numbers of legs are renamings of each other -/
namespace Wicked
open CppLt CppEq Rational
namespace Wick

theorem lift_perm {α β : Type _} [DecidableEq α] (f : α → β) : ∀ (m : List β) (l : List α), (l.map f).Perm m → ∃ l', l.Perm l' ∧ l'.map f = m := by
  intro m
  induction m with
  | nil => intro l h; exact ⟨l, List.Perm.refl _, h.eq_nil⟩
  | cons a m ih =>
    intro l h
    obtain ⟨x, hx, hxa⟩ := List.mem_map.1 (h.mem_iff.2 (List.mem_cons_self ..))
    have h1 := List.perm_cons_erase hx
    have h2 := (h1.map f).symm.trans h
    rw [List.map_cons, hxa] at h2
    obtain ⟨l', h3, h4⟩ := ih _ (List.Perm.cons_inv h2)
    exact ⟨x :: l', h1.trans (h3.cons x), by rw [List.map_cons, hxa, h4]⟩

theorem forall₂_exists {α β γ : Type _} {R : α → β → Prop} {P : α → γ → Prop} {Q : β → γ → Prop} {l : List α} {m : List β} (h : List.Forall₂ R l m)
    (hf : ∀ a b, R a b → ∃ c, P a c ∧ Q b c) : ∃ n, List.Forall₂ P l n ∧ List.Forall₂ Q m n := by
  induction h with
  | nil => exact ⟨[], .nil, .nil⟩
  | cons h1 _ ih =>
    obtain ⟨n, h2, h3⟩ := ih
    obtain ⟨c, h4, h5⟩ := hf _ _ h1
    exact ⟨c :: n, .cons h4 h2, .cons h5 h3⟩

/-- `b'`, renamed by `p`, has the kinds of operators of `b` -/
structure BMatch (p : List Int) (b' b : Block) : Prop where
  space : b'.space = b.space
  cre : (b'.cre.map (fun y => pcls p y.cls)).Perm (b.cre.map Slot.cls)
  ann : (b'.ann.map (fun y => pcls p y.cls)).Perm (b.ann.map Slot.cls)

/-- position-wise the same kinds -/
structure BKind (p : List Int) (b' b : Block) : Prop where
  space : b'.space = b.space
  cre : b'.cre.map (fun y => pcls p y.cls) = b.cre.map Slot.cls
  ann : b'.ann.map (fun y => pcls p y.cls) = b.ann.map Slot.cls

theorem beq_flat {p : List Int} {bs' bs : List Block} (h : List.Forall₂ (BKind p) bs' bs) :
    (bs'.flatMap Block.flat).map (fun y => pcls p y.cls) = (bs.flatMap Block.flat).map Slot.cls := by
  induction h with
  | nil => rfl
  | cons h1 _ ih =>
    simp only [List.flatMap_cons, List.map_append, ih, Block.flat, h1.cre, h1.ann]

theorem bmatch_flat {p : List Int} {bs' bs : List Block} (h : List.Forall₂ (BMatch p) bs' bs) :
    ((bs'.flatMap Block.flat).map (fun y => pcls p y.cls)).Perm ((bs.flatMap Block.flat).map Slot.cls) := by
  induction h with
  | nil => exact List.Perm.refl _
  | cons h1 _ ih =>
    simp only [List.flatMap_cons, List.map_append, Block.flat]
    exact (h1.cre.append h1.ann).append ih

theorem perm_append_cancel {α : Type _} [DecidableEq α] {a a' b b' : List α} (h : (a ++ b).Perm (a' ++ b')) (h1 : a.Perm a') : b.Perm b' := by
  rw [List.perm_iff_count] at *
  intro x
  have := h x
  have := h1 x
  simp only [List.count_append] at *
  omega

theorem blocks_eq_of_flat {bs bs' : List Block} {rs rs' : List Slot} (h : List.Forall₂ (fun b b' : Block => b.space = b'.space ∧ b.cre.length = b'.cre.length ∧ b.ann.length = b'.ann.length) bs bs')
    (he : bs.flatMap Block.flat ++ rs = bs'.flatMap Block.flat ++ rs') : bs = bs' ∧ rs = rs' := by
  induction h with
  | nil => exact ⟨rfl, by simpa using he⟩
  | @cons b b' bs bs' h1 _ ih =>
    simp only [List.flatMap_cons, List.append_assoc] at he
    have hl : b.flat.length = b'.flat.length := by unfold Block.flat; simp only [List.length_append]; omega
    obtain ⟨e1, e2⟩ := List.append_inj he hl
    obtain ⟨e3, e4⟩ := List.append_inj e1 h1.2.1
    obtain ⟨e5, e6⟩ := ih e2
    refine ⟨?_, e6⟩
    rw [e5]
    congr 1
    cases b; cases b'
    simp only at e3 e4 h1
    rw [e3, e4, h1.1]

/-- **a renaming between listings with the same numbers of legs** -/
theorem exists_renaming {o : OSI} {ops : OperatorProduct} {p c : List Int} (hp : IsPermOf ops.length p)
    {bs' bs : List Block} {rs' rs : List Slot} (hl' : IsListing o (graphOps ops (p, c)) bs' rs') (hl : IsListing o ops bs rs)
    {bs1 : List Block} (h1 : bs.Perm bs1) (h2 : List.Forall₂ (BMatch p) bs' bs1) :
    ∃ θ, Renaming o.spaces.length ops p c θ ∧ SameListing bs (bs'.map (Block.ren θ)) rs (rs'.map θ) := by
  -- reorder the blocks
  obtain ⟨bs2, h3, h4⟩ := forall₂_exists (P := BKind p) (Q := BSame) h2 (by
    intro b' b h
    obtain ⟨l1, a1, a2⟩ := lift_perm Slot.cls _ b.cre h.cre.symm
    obtain ⟨l2, a3, a4⟩ := lift_perm Slot.cls _ b.ann h.ann.symm
    exact ⟨⟨b.space, l1, l2⟩, ⟨h.space, a2.symm, a4.symm⟩, ⟨rfl, a1, a3⟩⟩)
  -- the rest
  have hcls := slots_cls (ns := o.spaces.length) (c := c) hp
  have t1 : ((bs'.flatMap Block.flat ++ rs').map (fun y => pcls p y.cls)).Perm ((bs1.flatMap Block.flat ++ rs).map Slot.cls) := by
    refine ((hl'.perm.map _).trans hcls).trans ?_
    refine (hl.perm.symm.map _).trans (List.Perm.map _ ?_)
    refine List.Perm.append ?_ (List.Perm.refl _)
    exact h1.flatMap_right _
  rw [List.map_append, List.map_append] at t1
  have t2 := perm_append_cancel t1 (bmatch_flat h2)
  obtain ⟨rs2, h5, h6⟩ := lift_perm Slot.cls _ rs t2.symm
  -- the map
  have hfl : (bs'.flatMap Block.flat ++ rs').map (fun y => pcls p y.cls) = (bs2.flatMap Block.flat ++ rs2).map Slot.cls := by
    rw [List.map_append, List.map_append, beq_flat h3, h6]
  have hP2 : (bs2.flatMap Block.flat ++ rs2).Perm (slots o.spaces.length ops) := by
    refine List.Perm.trans ?_ hl.perm
    refine List.Perm.append ?_ h5.symm
    refine List.Perm.trans ?_ (h1.flatMap_right _).symm
    clear h3 h2 h1 t1 hfl
    induction h4 with
    | nil => exact List.Perm.refl _
    | cons a1 _ ih => exact a1.flat.symm.append ih
  have hn' := listing_nodup hl'
  have hlen : (bs'.flatMap Block.flat ++ rs').length = (bs2.flatMap Block.flat ++ rs2).length := by
    have := congrArg List.length hfl
    simpa using this
  generalize hPd : bs'.flatMap Block.flat ++ rs' = P at *
  generalize hQd : bs2.flatMap Block.flat ++ rs2 = Q at *
  have hmap : P.map (fun y => Q.getD (P.idxOf y) ⟨0, 0, false, 0⟩) = Q := by
    apply List.ext_getElem (by simpa using hlen)
    intro i a b
    rw [List.length_map] at a
    simp [hn'.idxOf_getElem, b]
  refine ⟨fun y => Q.getD (P.idxOf y) ⟨0, 0, false, 0⟩, ?_, ?_⟩
  · constructor
    · refine (hl'.perm.symm.map _).trans ?_
      rw [hPd, hmap]; exact hP2
    · intro y hy
      have hyP : y ∈ P := by rw [← hPd]; exact hl'.perm.mem_iff.2 hy
      have hi := List.idxOf_lt_length_of_mem hyP
      have e := congrArg (fun l => l[P.idxOf y]?) hfl
      simp only [List.getElem?_map] at e
      rw [List.getElem?_eq_getElem hi, List.getElem?_eq_getElem (hlen ▸ hi)] at e
      simp only [Option.map_some, Option.some.injEq] at e
      rw [List.getElem_idxOf hi] at e
      rw [e, List.getD_eq_getElem?_getD, List.getElem?_eq_getElem (hlen ▸ hi)]; rfl
  · have key : bs'.map (Block.ren (fun y => Q.getD (P.idxOf y) ⟨0, 0, false, 0⟩)) = bs2 ∧ rs'.map (fun y => Q.getD (P.idxOf y) ⟨0, 0, false, 0⟩) = rs2 := by
      apply blocks_eq_of_flat
      · rw [List.forall₂_map_left_iff]
        refine h3.imp ?_
        intro b' b h
        refine ⟨h.space, ?_, ?_⟩
        · have := congrArg List.length h.cre; simpa [Block.ren] using this
        · have := congrArg List.length h.ann; simpa [Block.ren] using this
      · rw [flatMap_ren, hPd, hmap, hQd]
    rw [key.1, key.2]
    exact ⟨⟨bs1, h1, h4⟩, h5⟩

/-! ### numbers of legs -/

/-- `b` has the numbers of legs of `e` -/
structure BPat (ns : Nat) (e : EContr) (b : Block) : Prop where
  space : b.space = espace ns e
  count : ∀ k, (b.flat.map Slot.cls).count k = elegs e k

theorem count_flat_cls (n s : Nat) (cr : Bool) (f g : Nat → Nat) (k : Nat × Nat × Bool) :
    ((((List.range n).flatMap (fun v => (List.range (f v)).map (fun i => (⟨v, s, cr, g v + i⟩ : Slot)))).map Slot.cls).count k) =
      if k.1 < n ∧ k.2.1 = s ∧ k.2.2 = cr then f k.1 else 0 := by
  rw [List.map_flatMap, List.count_flatMap]
  simp only [List.map_map, Function.comp_def]
  have : ∀ v, (((List.range (f v)).map (fun i => Slot.cls (⟨v, s, cr, g v + i⟩ : Slot))).count k) = if v = k.1 then (if k.2.1 = s ∧ k.2.2 = cr then f v else 0) else 0 := by
    intro v
    have e : ((List.range (f v)).map (fun i => Slot.cls (⟨v, s, cr, g v + i⟩ : Slot))) = List.replicate (f v) (v, s, cr) := by
      simp [Slot.cls, List.map_const']
    rw [e, List.count_replicate]
    obtain ⟨k1, k2, k3⟩ := k
    by_cases h1 : v = k1
    · by_cases h2 : k2 = s
      · by_cases h3 : k3 = cr
        · simp [h1, h2, h3]
        · simp [h1, h2, h3, Ne.symm h3]
      · simp [h1, h2, Ne.symm h2]
    · simp [h1]
  simp only [this]
  by_cases hk : k.1 < n
  · simp only [hk, true_and]
    have h2 : ((List.range n).map (fun v => if v = k.1 then (if k.2.1 = s ∧ k.2.2 = cr then f v else 0) else 0)).sum =
        if k.2.1 = s ∧ k.2.2 = cr then f k.1 else 0 := by
      rw [← List.sum_toFinset _ List.nodup_range, Finset.sum_ite_eq' , if_pos (List.mem_toFinset.2 (List.mem_range.2 hk))]
    exact h2
  · rw [if_neg (by tauto)]
    apply List.sum_eq_zero
    intro x hx
    obtain ⟨v, hv, rfl⟩ := List.mem_map.1 hx
    rw [if_neg (by have := List.mem_range.1 hv; omega)]

theorem bpat_block {o : OSI} {n : Nat} {e : EContr} (h : Evaluable o n e) (pre : List EContr) :
    BPat o.spaces.length e ⟨espace o.spaces.length e, blkCre n (espace o.spaces.length e) pre e, blkAnn n (espace o.spaces.length e) pre e⟩ := by
  have hnn := evaluable_nonneg h
  obtain ⟨s, c, a, q, hs, hLg, hcn, hc, ha, hk, hk1⟩ := h
  obtain ⟨_, hsp⟩ := legs_spaces hs hLg hcn (by omega)
  refine ⟨rfl, fun k => ?_⟩
  rw [hsp]
  unfold Block.flat
  rw [List.map_append, List.count_append]
  unfold blkCre blkAnn
  rw [count_flat_cls, count_flat_cls]
  unfold elegs
  by_cases h1 : k.1 < n
  · have hL := hLg.2 k.1 h1 k.2.1
    by_cases h2 : k.2.1 = s
    · cases h3 : k.2.2 <;> simp [h1, h2]
    · rw [if_neg h2, if_neg h2] at hL
      rw [hL.1, hL.2]
      simp [h2]
  · have : gmAt e k.1 = GraphMatrix.zero := by
      unfold gmAt
      rw [List.getD_eq_getElem?_getD, List.getElem?_eq_none (by rw [hLg.1]; omega)]; rfl
    rw [this, GraphMatrix.cre, GraphMatrix.ann, GraphMatrix.get_zero]
    simp [h1]

theorem bpat_blocks {o : OSI} {n : Nat} : ∀ (cs pre : List EContr), (∀ e ∈ cs, Evaluable o n e) →
    List.Forall₂ (BPat o.spaces.length) cs (blocksFrom o.spaces.length n pre cs) := by
  intro cs
  induction cs with
  | nil => intro pre _; exact .nil
  | cons e cs ih =>
    intro pre h
    rw [blocksFrom]
    exact .cons (bpat_block (h e (by simp)) pre) (ih _ (fun e' he' => h e' (by simp [he'])))

theorem elegs_row {n : Nat} {p : List Int} (hp : IsPermOf n p) {e : EContr} (he : e.length = n) {k : Nat × Nat × Bool} (hk : k.1 < n) :
    elegs (p.map (fun i => gmAt e i.toNat)) k = elegs e (pcls p k) := by
  unfold elegs pcls
  simp only
  rw [gmAt_row hp e hk]

theorem elegs_out {e : EContr} {k : Nat × Nat × Bool} (hk : e.length ≤ k.1) : elegs e k = 0 := by
  unfold elegs
  have : gmAt e k.1 = GraphMatrix.zero := by
    unfold gmAt
    rw [List.getD_eq_getElem?_getD, List.getElem?_eq_none hk]; rfl
  rw [this, GraphMatrix.cre, GraphMatrix.ann, GraphMatrix.get_zero]
  simp

theorem espace_row {o : OSI} {n : Nat} {p : List Int} (hp : IsPermOf n p) {e : EContr} (h : Evaluable o n e) :
    espace o.spaces.length (p.map (fun i => gmAt e i.toNat)) = espace o.spaces.length e := by
  obtain ⟨s, c, a, k, hs, hL, hnn, hc, ha, hk, hk1⟩ := h
  have hL' : Legs n s (fun A => c (pAt p A)) (fun A => a (pAt p A)) (p.map (fun i => gmAt e i.toNat)) := by
    constructor
    · rw [List.length_map, hp.length_eq]; simp
    · intro A hA t
      rw [gmAt_row hp e hA]
      exact hL.2 _ (pAt_lt hp hA) t
  rw [(legs_spaces hs hL hnn (by omega)).2, (legs_spaces hs hL' (fun A hA => hnn _ (pAt_lt hp hA)) (by rw [(perm_pAt hp c).sum_eq]; omega)).2]

theorem pAt_surj {n : Nat} {p : List Int} (hp : IsPermOf n p) {k : Nat} (hk : k < n) : ∃ j < n, pAt p j = k := by
  have := perm_pAt hp (fun i => i)
  rw [List.map_id'] at this
  obtain ⟨j, hj, e⟩ := List.mem_map.1 (this.mem_iff.2 (List.mem_range.2 hk))
  exact ⟨j, List.mem_range.1 hj, e⟩

theorem count_cre (b : Block) {o : OSI} (hb : BlockOK o b) (k : Nat × Nat × Bool) :
    (b.cre.map Slot.cls).count k = if k.2.2 then (b.flat.map Slot.cls).count k else 0 := by
  unfold Block.flat
  rw [List.map_append, List.count_append]
  by_cases hk : k.2.2 = true
  · rw [if_pos hk, List.count_eq_zero_of_not_mem (l := b.ann.map Slot.cls), Nat.add_zero]
    intro hm
    obtain ⟨y, hy, rfl⟩ := List.mem_map.1 hm
    have := (hb.ann y hy).1
    rw [show y.cls.2.2 = y.cre from rfl, this] at hk
    cases hk
  · rw [if_neg hk, List.count_eq_zero_of_not_mem]
    intro hm
    obtain ⟨y, hy, rfl⟩ := List.mem_map.1 hm
    exact hk (hb.cre y hy).1

theorem count_ann (b : Block) {o : OSI} (hb : BlockOK o b) (k : Nat × Nat × Bool) :
    (b.ann.map Slot.cls).count k = if k.2.2 then 0 else (b.flat.map Slot.cls).count k := by
  have := count_cre b hb k
  unfold Block.flat at this ⊢
  rw [List.map_append, List.count_append] at this ⊢
  by_cases hk : k.2.2 = true
  · rw [if_pos hk] at this ⊢; omega
  · rw [if_neg hk] at this ⊢; omega

theorem count_map_pcls {n : Nat} {p : List Int} (hp : IsPermOf n p) {l : List Slot} (hl : ∀ y ∈ l, y.op < n) (k : Nat × Nat × Bool) (hk : k.1 < n) :
    (l.map (fun y => pcls p y.cls)).count (pcls p k) = (l.map Slot.cls).count k := by
  rw [show (fun y : Slot => pcls p y.cls) = pcls p ∘ Slot.cls from rfl, ← List.map_map]
  convert count_map_inj (pcls p) (l.map Slot.cls) k ?_
  intro b hb he
  obtain ⟨y, hy, rfl⟩ := List.mem_map.1 hb
  unfold pcls at he
  simp only [Prod.mk.injEq] at he
  have := pAt_inj hp (hl y hy) hk he.1
  exact Prod.ext this (Prod.ext he.2.1 he.2.2)

theorem bmatch_of_pat {o : OSI} {n : Nat} {p : List Int} (hp : IsPermOf n p) {e : EContr} (he : Evaluable o n e) {b b' : Block}
    (hb : BlockOK o b) (hb' : BlockOK o b') (hop : ∀ y ∈ b'.flat, y.op < n)
    (h : BPat o.spaces.length e b) (h' : BPat o.spaces.length (p.map (fun i => gmAt e i.toNat)) b') : BMatch p b' b := by
  have hop2 : ∀ y ∈ b.flat, y.op < n := by
    intro y hy
    by_contra hge
    have h1 := h.count y.cls
    rw [elegs_out (k := y.cls) (by rw [evaluable_len he]; exact Nat.le_of_not_lt hge)] at h1
    exact List.count_eq_zero.1 h1 (List.mem_map_of_mem hy)
  have key : ∀ k : Nat × Nat × Bool, k.1 < n → (b'.flat.map Slot.cls).count k = (b.flat.map Slot.cls).count (pcls p k) := by
    intro k hk
    rw [h.count, h'.count, elegs_row hp (evaluable_len he) hk]
  have out : ∀ (l : List Slot), (∀ y ∈ l, y.op < n) → ∀ K : Nat × Nat × Bool, ¬ K.1 < n → (l.map Slot.cls).count K = 0 ∧ (l.map (fun y => pcls p y.cls)).count K = 0 := by
    intro l hl K hK
    constructor <;> rw [List.count_eq_zero] <;> intro hm <;> obtain ⟨y, hy, rfl⟩ := List.mem_map.1 hm
    · exact hK (hl y hy)
    · exact hK (pAt_lt hp (hl y hy))
  refine ⟨by rw [h.space, h'.space, espace_row hp he], ?_, ?_⟩
  · rw [List.perm_iff_count]
    intro K
    by_cases hK : K.1 < n
    · obtain ⟨j, hj, ej⟩ := pAt_surj hp hK
      have : K = pcls p (j, K.2) := Prod.ext ej.symm rfl
      rw [this, count_map_pcls hp (fun y hy => hop y (List.mem_append_left _ hy)) _ hj, count_cre b' hb', count_cre b hb, key _ hj]
      rfl
    · rw [(out _ (fun y hy => hop y (List.mem_append_left _ hy)) K hK).2, (out _ (fun y hy => hop2 y (List.mem_append_left _ hy)) K hK).1]
  · rw [List.perm_iff_count]
    intro K
    by_cases hK : K.1 < n
    · obtain ⟨j, hj, ej⟩ := pAt_surj hp hK
      have : K = pcls p (j, K.2) := Prod.ext ej.symm rfl
      rw [this, count_map_pcls hp (fun y hy => hop y (List.mem_append_right _ hy)) _ hj, count_ann b' hb', count_ann b hb, key _ hj]
      rfl
    · rw [(out _ (fun y hy => hop y (List.mem_append_right _ hy)) K hK).2, (out _ (fun y hy => hop2 y (List.mem_append_right _ hy)) K hK).1]

end Wick
end Wicked
