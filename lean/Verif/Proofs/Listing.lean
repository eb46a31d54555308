import Verif.Proofs.WickGraph
/-! Listings: a partition of the operators of a product into contractions and uncontracted operators,
with an order.  `evaluate` computes the term and the sign of one listing. -/
namespace Wicked
open CppLt CppEq
namespace Wick

/-- a contraction that `evaluate` can deal with -/
structure BlockOK (o : OSI) (b : Block) : Prop where
  sp : b.space < o.spaces.length
  cre : ∀ x ∈ b.cre, x.cre = true ∧ x.space = b.space
  ann : ∀ x ∈ b.ann, x.cre = false ∧ x.space = b.space
  len : b.cre.length = b.ann.length
  pos : 1 ≤ b.cre.length
  one : o.spaceType b.space ≠ .ok .general → b.cre.length = 1

/-- contractions `bs` and remaining operators `R`, in some order, that together are all operators of the product -/
structure IsListing (o : OSI) (ops : OperatorProduct) (bs : List Block) (R : List Slot) : Prop where
  blocks : ∀ b ∈ bs, BlockOK o b
  perm : (bs.flatMap Block.flat ++ R).Perm (slots o.spaces.length ops)

/-- the term of a listing -/
def listTerm (o : OSI) (ops : OperatorProduct) (bs : List Block) (R : List Slot) : STerm :=
  (⟨false, R.map (fun x => ⟨x.type, slotIdx (slots o.spaces.length ops) x⟩),
    layTensors o.spaces.length (slotIdx (slots o.spaces.length ops)) 0 ops ++
      bs.flatMap (bTensors o (slots o.spaces.length ops) (slotIdx (slots o.spaces.length ops)))⟩ : STerm).reindex
    (pairMap (slots o.spaces.length ops) (bs.flatMap (bPairs o)))

/-- the sign of a listing -/
def listSign (o : OSI) (ops : OperatorProduct) (bs : List Block) (R : List Slot) : Int :=
  (bs.map (bSign o (slots o.spaces.length ops))).prod *
    permutationSign ((slots o.spaces.length ops).map (posZ (bs.flatMap Block.flat ++ R)))

theorem blockOK_of {o : OSI} {n : Nat} {e : EContr} {pre : List EContr} (h : Evaluable o n e) :
    BlockOK o ⟨espace o.spaces.length e, blkCre n (espace o.spaces.length e) pre e, blkAnn n (espace o.spaces.length e) pre e⟩ := by
  have hnn := evaluable_nonneg h
  obtain ⟨s, c, a, k, hs, hLg, hcn, hc, ha, hk, hk1⟩ := h
  obtain ⟨_, hsp⟩ := legs_spaces hs hLg hcn (by omega)
  rw [hsp]
  have hlc : ((blkCre n s pre e).length : Int) = k := by
    rw [length_blkCre _ _ _ _ (fun v hv => (hnn v hv s).1), ← hc]
    congr 1; apply List.map_congr_left; intro v hv
    rw [(hLg.2 v (List.mem_range.1 hv) s).1, if_pos rfl]
  have hla : ((blkAnn n s pre e).length : Int) = k := by
    rw [length_blkAnn _ _ _ _ (fun v hv => (hnn v hv s).2), ← ha]
    congr 1; apply List.map_congr_left; intro v hv
    rw [(hLg.2 v (List.mem_range.1 hv) s).2, if_pos rfl]
  refine ⟨hs, ?_, ?_, by simp only; omega, by simp only; omega, ?_⟩
  · intro x hx; have := mem_blkCre.1 hx; exact ⟨this.2.2.1, this.2.1⟩
  · intro x hx; have := mem_blkAnn.1 hx; exact ⟨this.2.2.1, this.2.1⟩
  · intro h; have := hk1 h; simp only; omega

theorem blocksFrom_ok {o : OSI} {n : Nat} : ∀ (cs pre : List EContr), (∀ e ∈ cs, Evaluable o n e) →
    ∀ b ∈ blocksFrom o.spaces.length n pre cs, BlockOK o b := by
  intro cs
  induction cs with
  | nil => intro pre _ b hb; simp [blocksFrom] at hb
  | cons e cs ih =>
    intro pre h b hb
    rw [blocksFrom] at hb
    rcases List.mem_cons.1 hb with rfl | hb
    · exact blockOK_of (h e (by simp))
    · exact ih _ (fun e' he' => h e' (by simp [he'])) b hb

/-- **Evaluation never fails**: it gives the term and the sign of a listing -/
theorem evalCore_listing {o : OSI} {ops : OperatorProduct} {cs : List EContr} (h8 : o.spaces.length ≤ 8) (hE : EvalList o ops cs) :
    IsListing o ops (blocksOf o ops cs) (restOps o ops cs) ∧
    evalCore o ops cs = .ok (listTerm o ops (blocksOf o ops cs) (restOps o ops cs),
      listSign o ops (blocksOf o ops cs) (restOps o ops cs)) := by
  obtain ⟨h1, h2⟩ := evalCore_ok h8 hE
  exact ⟨⟨blocksFrom_ok cs [] hE.ev, h1⟩, h2⟩

/-! ### renaming -/

/-- partner of a slot -/
def ren : List (Slot × Slot) → Slot → Slot
  | [], x => x
  | p :: ps, x => if x = p.1 then p.2 else ren ps x

theorem ren_of_mem {ps : List (Slot × Slot)} (hn : (ps.map Prod.fst).Nodup) {p : Slot × Slot} (h : p ∈ ps) : ren ps p.1 = p.2 := by
  induction ps with
  | nil => cases h
  | cons q ps ih =>
    rw [List.map_cons, List.nodup_cons] at hn
    rcases List.mem_cons.1 h with rfl | h
    · simp [ren]
    · have hne : p.1 ≠ q.1 := fun he => hn.1 (he ▸ List.mem_map_of_mem h)
      rw [ren, if_neg hne]
      exact ih hn.2 h

theorem ren_of_not {ps : List (Slot × Slot)} {x : Slot} (h : x ∉ ps.map Prod.fst) : ren ps x = x := by
  induction ps with
  | nil => rfl
  | cons q ps ih =>
    simp only [List.map_cons, List.mem_cons, not_or] at h
    rw [ren, if_neg h.1, ih h.2]

theorem pairMap_srt (L : List Slot) (ps : List (Slot × Slot)) : SMap.Srt (pairMap L ps) := by
  induction ps using List.reverseRecOn with
  | nil => simp [pairMap, SMap.Srt]
  | append_singleton ps p ih =>
    unfold pairMap
    rw [List.foldl_append]
    exact SMap.srt_insert ih

theorem find_pairMap {L : List Slot} (hL : L.Nodup) {ps : List (Slot × Slot)} (hn : (ps.map Prod.fst).Nodup)
    (hin : ∀ p ∈ ps, p.1 ∈ L) {x : Slot} (hx : x ∈ L) :
    SMap.find (slotIdx L x) (pairMap L ps) = if x ∈ ps.map Prod.fst then some (slotIdx L (ren ps x)) else none := by
  induction ps using List.reverseRecOn with
  | nil => rfl
  | append_singleton ps p ih =>
    have h1 : pairMap L (ps ++ [p]) = SMap.insert (slotIdx L p.1) (slotIdx L p.2) (pairMap L ps) := by
      unfold pairMap; rw [List.foldl_append]; rfl
    rw [h1, SMap.find_insert (pairMap_srt L ps)]
    have hn0 := hn
    rw [List.map_append, List.nodup_append] at hn
    have ih' := ih hn.1 (fun q hq => hin q (by simp [hq]))
    rw [ih']
    by_cases hxp : x = p.1
    · subst hxp
      rw [eqv_refl, if_pos rfl, if_pos (by simp), ren_of_mem hn0 (by simp)]
    · rw [if_neg]
      · by_cases hm : x ∈ ps.map Prod.fst
        · rw [if_pos hm, if_pos (by simp [hm])]
          obtain ⟨q, hq, rfl⟩ := List.mem_map.1 hm
          rw [ren_of_mem hn.1 hq, ren_of_mem hn0 (by simp [hq])]
        · rw [if_neg hm, if_neg (by rw [List.map_append, List.mem_append, not_or]; exact ⟨hm, by simpa using hxp⟩)]
      · rw [eqv_eq]
        intro he
        exact hxp (slotIdx_inj hL (hin p (by simp)) hx he).symm

theorem applyMap_pairMap {L : List Slot} (hL : L.Nodup) {ps : List (Slot × Slot)} (hn : (ps.map Prod.fst).Nodup)
    (hin : ∀ p ∈ ps, p.1 ∈ L) {x : Slot} (hx : x ∈ L) :
    applyMap (pairMap L ps) (slotIdx L x) = slotIdx L (ren ps x) := by
  unfold applyMap
  rw [find_pairMap hL hn hin hx]
  split
  · rfl
  · rename_i h; rw [ren_of_not h]; rfl

/-! ### the blocks of a listing -/

/-- slots of a block whose index survives -/
def bSurv (o : OSI) (b : Block) : List Slot :=
  match o.spaceType b.space with
  | .ok .occupied => b.cre
  | .ok .unoccupied => b.ann
  | _ => b.cre ++ b.ann

theorem block_one {o : OSI} {b : Block} (h : BlockOK o b) (hg : o.spaceType b.space ≠ .ok .general) :
    ∃ x y, b.cre = [x] ∧ b.ann = [y] := by
  have h1 := h.one hg
  have h2 := h.len
  obtain ⟨x, hx⟩ := List.length_eq_one_iff.1 h1
  obtain ⟨y, hy⟩ := List.length_eq_one_iff.1 (h2.symm.trans h1)
  exact ⟨x, y, hx, hy⟩

theorem blockOK_type {o : OSI} {b : Block} (h : BlockOK o b) : ∃ t, o.spaceType b.space = .ok t := spaceType_lt h.sp

/-- firsts of the pairs of a block form a sublist of the block -/
theorem bPairs_fst {o : OSI} {b : Block} (h : BlockOK o b) : ((bPairs o b).map Prod.fst).Sublist b.flat := by
  obtain ⟨t, ht⟩ := blockOK_type h
  unfold bPairs Block.flat
  cases t with
  | general => rw [ht]; simp
  | occupied =>
    obtain ⟨x, y, hx, hy⟩ := block_one h (by rw [ht]; simp)
    rw [ht, hx, hy]; simp
  | unoccupied =>
    obtain ⟨x, y, hx, hy⟩ := block_one h (by rw [ht]; simp)
    rw [ht, hx, hy]; simp

theorem flatMap_sublist {α β : Type _} {f g : α → List β} : ∀ (l : List α), (∀ a ∈ l, (f a).Sublist (g a)) → (l.flatMap f).Sublist (l.flatMap g) := by
  intro l
  induction l with
  | nil => intro _; exact List.Sublist.refl _
  | cons a l ih =>
    intro h
    rw [List.flatMap_cons, List.flatMap_cons]
    exact (h a (by simp)).append (ih (fun b hb => h b (by simp [hb])))

section
variable {o : OSI} {ops : OperatorProduct} {bs : List Block} {R : List Slot} (h : IsListing o ops bs R)
include h

theorem listing_nodup : (bs.flatMap Block.flat ++ R).Nodup := h.perm.nodup_iff.2 (nodup_slots _ _)

theorem pairs_sub : ((bs.flatMap (bPairs o)).map Prod.fst).Sublist (bs.flatMap Block.flat) := by
  rw [List.map_flatMap]
  exact flatMap_sublist bs (fun b hb => bPairs_fst (h.blocks b hb))

theorem pairs_nodup : ((bs.flatMap (bPairs o)).map Prod.fst).Nodup :=
  (List.nodup_append.1 (listing_nodup h)).1.sublist (pairs_sub h)

theorem pairs_mem : ∀ p ∈ bs.flatMap (bPairs o), p.1 ∈ slots o.spaces.length ops := by
  intro p hp
  have := (pairs_sub h).subset (List.mem_map_of_mem hp)
  exact h.perm.mem_iff.1 (List.mem_append_left _ this)

theorem ren_rest {x : Slot} (hx : x ∈ R) : ren (bs.flatMap (bPairs o)) x = x := by
  apply ren_of_not
  intro hm
  exact (List.nodup_append.1 (listing_nodup h)).2.2 x ((pairs_sub h).subset hm) x hx rfl

/-- different blocks are disjoint -/
theorem blocks_inj {b b' : Block} (hb : b ∈ bs) (hb' : b' ∈ bs) {x : Slot} (hx : x ∈ b.flat) (hx' : x ∈ b'.flat) : b = b' := by
  have hn := (List.nodup_append.1 (listing_nodup h)).1
  rw [List.nodup_flatMap] at hn
  by_contra hne
  have hp := hn.2
  have : ∀ l : List Block, l.Pairwise (Function.onFun List.Disjoint Block.flat) → b ∈ l → b' ∈ l → False := by
    intro l hl h1 h2
    induction l with
    | nil => cases h1
    | cons c l ih =>
      rw [List.pairwise_cons] at hl
      rcases List.mem_cons.1 h1 with rfl | h1
      · rcases List.mem_cons.1 h2 with rfl | h2
        · exact hne rfl
        · exact hl.1 b' h2 hx hx'
      · rcases List.mem_cons.1 h2 with rfl | h2
        · exact hl.1 b (by assumption) hx' hx
        · exact ih hl.2 (by assumption) h2
  exact this bs hp hb hb'

/-- a slot of a block is renamed inside that block -/
theorem ren_block {b : Block} (hb : b ∈ bs) {x : Slot} (hx : x ∈ b.flat) :
    ren (bs.flatMap (bPairs o)) x = ren (bPairs o b) x := by
  by_cases hm : x ∈ (bPairs o b).map Prod.fst
  · obtain ⟨p, hp, rfl⟩ := List.mem_map.1 hm
    rw [ren_of_mem (pairs_nodup h) (List.mem_flatMap.2 ⟨b, hb, hp⟩)]
    rw [ren_of_mem _ hp]
    have := pairs_nodup h
    rw [List.map_flatMap, List.nodup_flatMap] at this
    exact this.1 b hb
  · rw [ren_of_not hm, ren_of_not]
    intro hm'
    obtain ⟨p, hp, he⟩ := List.mem_map.1 hm'
    obtain ⟨b', hb', hp'⟩ := List.mem_flatMap.1 hp
    have hx' : x ∈ b'.flat := (bPairs_fst (h.blocks b' hb')).subset (he ▸ List.mem_map_of_mem hp')
    have := blocks_inj h hb hb' hx hx'
    subst this
    exact hm (he ▸ List.mem_map_of_mem hp')

end

/-- creation operators of the whole product -/
theorem layTensors_lower (ns : Nat) (I : Slot → Index) : ∀ (ops : OperatorProduct) (o : Nat),
    ((layTensors ns I o ops).flatMap Tensor.lower) = ((slotsFrom ns o ops).filter (fun x => x.cre)).map I := by
  intro ops
  induction ops with
  | nil => intro o; rfl
  | cons p ops ih =>
    intro o
    rw [layTensors, slotsFrom, List.flatMap_cons, ih, List.filter_append, List.map_append]
    congr 2
    unfold opSlots
    rw [List.filter_append]
    have h1 : (creSlots ns o p).filter (fun x => x.cre) = creSlots ns o p := by
      rw [List.filter_eq_self]; intro x hx; exact (mem_creSlots.1 hx).2.2.1
    have h2 : (annSlots ns o p).reverse.filter (fun x => x.cre) = [] := by
      rw [List.filter_eq_nil_iff]; intro x hx; rw [(mem_annSlots.1 (List.mem_reverse.1 hx)).2.2.1]; simp
    rw [h1, h2, List.append_nil]

theorem layTensors_upper (ns : Nat) (I : Slot → Index) : ∀ (ops : OperatorProduct) (o : Nat),
    ((layTensors ns I o ops).flatMap Tensor.upper).Perm (((slotsFrom ns o ops).filter (fun x => !x.cre)).map I) := by
  intro ops
  induction ops with
  | nil => intro o; exact List.Perm.refl _
  | cons p ops ih =>
    intro o
    rw [layTensors, slotsFrom, List.flatMap_cons, List.filter_append, List.map_append]
    refine List.Perm.append ?_ (ih _)
    unfold opSlots
    rw [List.filter_append]
    have h1 : (creSlots ns o p).filter (fun x => !x.cre) = [] := by
      rw [List.filter_eq_nil_iff]; intro x hx; rw [(mem_creSlots.1 hx).2.2.1]; simp
    have h2 : (annSlots ns o p).reverse.filter (fun x => !x.cre) = (annSlots ns o p).reverse := by
      rw [List.filter_eq_self]; intro x hx; rw [(mem_annSlots.1 (List.mem_reverse.1 hx)).2.2.1]; rfl
    rw [h1, h2, List.nil_append]
    exact (List.reverse_perm _).symm.map _

end Wick
end Wicked
