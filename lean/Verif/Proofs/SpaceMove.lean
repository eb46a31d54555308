import Verif.Proofs.SpaceOrder
import Verif.Spec.SpaceOrder
/-! Wick's theorem when the orbital spaces are numbered in another order -/
namespace Wicked
open CppLt CppEq Rational
namespace Wick

def movSlot (π : Equiv.Perm Nat) (y : Slot) : Slot := ⟨y.op, π y.space, y.cre, y.k⟩

theorem movSlot_inj (π : Equiv.Perm Nat) : Function.Injective (movSlot π) := by
  rintro ⟨a, s, c, k⟩ ⟨a', s', c', k'⟩ h
  simp only [movSlot, Slot.mk.injEq, EmbeddingLike.apply_eq_iff_eq] at h
  simpa using h

theorem movSlot_symm (π : Equiv.Perm Nat) (y : Slot) : movSlot π.symm (movSlot π y) = y := by simp [movSlot]
theorem movSlot_symm' (π : Equiv.Perm Nat) (y : Slot) : movSlot π (movSlot π.symm y) = y := by simp [movSlot]

section slots
variable {π : Equiv.Perm Nat} {ns : Nat}

theorem mov_creP {p p' : Operator} (h : p.SameOp π ns p') (j : Nat) :
    creP ((List.range ns).map π) j p' = (creSlots ns j p).map (movSlot π) ∧ annP ((List.range ns).map π) j p' = (annSlots ns j p).map (movSlot π) := by
  unfold creP annP creSlots annSlots
  rw [List.map_flatMap, List.map_flatMap, List.flatMap_map, List.flatMap_map]
  constructor
  · apply List.flatMap_congr
    intro s hs
    rw [(h.2 s (List.mem_range.1 hs)).1, List.map_map]
    rfl
  · apply List.flatMap_congr
    intro s hs
    rw [(h.2 s (List.mem_range.1 hs)).2, List.map_map]
    rfl

theorem mov_slotsP {ops ops' : OperatorProduct} (h : List.Forall₂ (Operator.SameOp π ns) ops ops') : ∀ j,
    slotsP ((List.range ns).map π) j ops' = (slotsFrom ns j ops).map (movSlot π) := by
  induction h with
  | nil => intro j; rfl
  | cons hp _ ih =>
    intro j
    rw [slotsP, slotsFrom, List.map_append, ih]
    congr 1
    unfold opP opSlots
    rw [(mov_creP hp j).1, (mov_creP hp j).2, List.map_append, List.map_reverse]

theorem mov_elemsP {Ω R A : Type} [CommRing R] {v : OrbSystem Ω R A} {ops ops' : OperatorProduct} (h : List.Forall₂ (Operator.SameOp π ns) ops ops') (x : Slot → Ω) : ∀ j,
    elemsP v ((List.range ns).map π) j ops' x = elemsFrom v ns j ops (fun y => x (movSlot π y)) := by
  induction h with
  | nil => intro j; rfl
  | cons hp _ ih =>
    intro j
    rw [elemsP, elemsFrom, ih, hp.1, (mov_creP hp j).1, (mov_creP hp j).2, List.map_map, List.map_map]
    rfl
end slots

section
variable {π : Equiv.Perm Nat}

theorem mem_image_mov {b : Finset Slot} {y : Slot} : movSlot π y ∈ b.image (movSlot π) ↔ y ∈ b :=
  ⟨fun h => by obtain ⟨z, hz, e⟩ := Finset.mem_image.1 h; rwa [movSlot_inj π e] at hz, fun h => Finset.mem_image_of_mem _ h⟩

theorem image_mov_symm (π : Equiv.Perm Nat) (b : Finset Slot) : (b.image (movSlot π)).image (movSlot π.symm) = b := by
  rw [Finset.image_image]
  have : movSlot π.symm ∘ movSlot π = id := funext (movSlot_symm π)
  rw [this, Finset.image_id]

theorem creOf_mov (L : List Slot) (b : Finset Slot) : creOf (L.map (movSlot π)) (b.image (movSlot π)) = (creOf L b).map (movSlot π) := by
  unfold creOf
  rw [List.filter_map]
  congr 2
  funext y
  simp only [Function.comp_apply, mem_image_mov]
  rfl

theorem annOf_mov (L : List Slot) (b : Finset Slot) : annOf (L.map (movSlot π)) (b.image (movSlot π)) = (annOf L b).map (movSlot π) := by
  unfold annOf
  rw [List.filter_map]
  congr 2
  funext y
  simp only [Function.comp_apply, mem_image_mov]
  rfl

theorem conOrder_mov (L : List Slot) (b : Finset Slot) : conOrder (L.map (movSlot π)) (b.image (movSlot π)) = (conOrder L b).map (movSlot π) := by
  unfold conOrder
  rw [Finset.card_image_of_injective _ (movSlot_inj π)]
  split
  · rw [List.filter_map]
    congr 2
    funext y
    simp only [Function.comp_apply, mem_image_mov]
  · rw [creOf_mov, annOf_mov, List.map_append]

def movScheme (π : Equiv.Perm Nat) (S : Finset (Finset Slot)) : Finset (Finset Slot) := S.image (fun b => b.image (movSlot π))

theorem movImage_inj (π : Equiv.Perm Nat) : Function.Injective (fun b : Finset Slot => b.image (movSlot π)) := Finset.image_injective (movSlot_inj π)

theorem movScheme_symm (π : Equiv.Perm Nat) (S : Finset (Finset Slot)) : movScheme π.symm (movScheme π S) = S := by
  unfold movScheme
  rw [Finset.image_image]
  have : ((fun b : Finset Slot => b.image (movSlot π.symm)) ∘ fun b => b.image (movSlot π)) = id := by
    funext b; exact image_mov_symm π b
  rw [this, Finset.image_id]

theorem leftOver_mov (L : List Slot) (S : Finset (Finset Slot)) : leftOver (L.map (movSlot π)) (movScheme π S) = (leftOver L S).map (movSlot π) := by
  unfold leftOver
  rw [List.filter_map]
  congr 2
  funext y
  simp only [Function.comp_apply]
  congr 1
  apply propext
  constructor
  · intro h b hb hy
    exact h _ (Finset.mem_image_of_mem _ hb) (mem_image_mov.2 hy)
  · intro h b hb hy
    obtain ⟨c, hc, rfl⟩ := Finset.mem_image.1 hb
    exact h c hc (mem_image_mov.1 hy)

theorem posZ_mov (L : List Slot) (y : Slot) : posZ (L.map (movSlot π)) (movSlot π y) = posZ L y := by
  unfold posZ
  congr 1
  induction L with
  | nil => rfl
  | cons a L ih =>
    rw [List.map_cons, List.idxOf_cons, List.idxOf_cons, ih]
    have : (movSlot π a == movSlot π y) = (a == y) := by
      rw [Bool.eq_iff_iff, beq_iff_eq, beq_iff_eq]
      exact (movSlot_inj π).eq_iff
    rw [this]

theorem sgR_mov (L Q : List Slot) : sgR (posZ (L.map (movSlot π))) (Q.map (movSlot π)) = sgR (posZ L) Q := by
  rw [sgR_map]
  simp only [posZ_mov]

theorem crossSg_mov (L l m : List Slot) : crossSg (posZ (L.map (movSlot π))) (l.map (movSlot π)) (m.map (movSlot π)) = crossSg (posZ L) l m := by
  unfold crossSg
  simp only [List.map_map, Function.comp_def, posZ_mov]

theorem contraction_mov {o o' : OSI} (ho : SameSpaces π o o') {m : Int} {b : Finset Slot} (h : IsContraction o m b) : IsContraction o' m (b.image (movSlot π)) := by
  obtain ⟨s, hs, hsp, h⟩ := h
  refine ⟨π s, by rw [ho.num]; exact (ho.lt s).2 hs, ?_, ?_⟩
  · intro x hx
    obtain ⟨y, hy, rfl⟩ := Finset.mem_image.1 hx
    show π y.space = π s
    rw [hsp y hy]
  rw [ho.type s hs]
  rcases h with ⟨ht, c, a, rfl, h1, h2, h3⟩ | ⟨ht, a, c, rfl, h1, h2, h3⟩ | ⟨ht, h1, h2, h3, x, hx, y, hy, hne⟩
  · left
    exact ⟨ht, movSlot π c, movSlot π a, by rw [Finset.image_insert, Finset.image_singleton], h1, h2, h3⟩
  · right; left
    exact ⟨ht, movSlot π a, movSlot π c, by rw [Finset.image_insert, Finset.image_singleton], h1, h2, h3⟩
  · right; right
    have f : ∀ t, ((b.image (movSlot π)).filter (fun x => x.cre = t)).card = (b.filter (fun x => x.cre = t)).card := by
      intro t
      rw [Finset.filter_image, Finset.card_image_of_injective _ (movSlot_inj π)]
      rfl
    rw [f, f]
    exact ⟨ht, h1, h2, h3, movSlot π x, Finset.mem_image_of_mem _ hx, movSlot π y, Finset.mem_image_of_mem _ hy, hne⟩

theorem scheme_mov {o o' : OSI} (ho : SameSpaces π o o') {m : Int} {ops ops' : OperatorProduct} {minr maxr : Int}
    (hL : (slots o'.spaces.length ops').Perm ((slots o.spaces.length ops).map (movSlot π)))
    {S : Finset (Finset Slot)} (h : IsScheme o m ops minr maxr S) : IsScheme o' m ops' minr maxr (movScheme π S) := by
  obtain ⟨h1, h2, h3, h4, h5⟩ := h
  have hc : (∑ b ∈ movScheme π S, b.card) = ∑ b ∈ S, b.card := by
    unfold movScheme
    rw [Finset.sum_image (fun a _ b _ h => movImage_inj π h)]
    apply Finset.sum_congr rfl
    intro b _
    exact Finset.card_image_of_injective _ (movSlot_inj π)
  have hlen : (slots o'.spaces.length ops').length = (slots o.spaces.length ops).length := by rw [hL.length_eq, List.length_map]
  refine ⟨?_, ?_, ?_, ?_, ?_⟩
  · intro b hb y hy
    obtain ⟨c, hc, rfl⟩ := Finset.mem_image.1 hb
    obtain ⟨z, hz, rfl⟩ := Finset.mem_image.1 hy
    rw [List.mem_toFinset, hL.mem_iff]
    exact List.mem_map_of_mem (List.mem_toFinset.1 (h1 c hc hz))
  · intro b hb
    obtain ⟨c, hc, rfl⟩ := Finset.mem_image.1 hb
    exact contraction_mov ho (h2 c hc)
  · intro b hb b' hb' hne
    obtain ⟨c, hc, rfl⟩ := Finset.mem_image.1 hb
    obtain ⟨c', hc', rfl⟩ := Finset.mem_image.1 hb'
    have := h3 c hc c' hc' (fun e => hne (by rw [e]))
    exact Finset.disjoint_image (movSlot_inj π) |>.2 this
  · rw [hc, hlen]; exact h4
  · rw [hc, hlen]; exact h5

def movKey (π : Equiv.Perm Nat) (k : Nat × Nat × Bool) : Nat × Nat × Bool := (k.1, π k.2.1, k.2.2)

theorem legCount_mov (b : Finset Slot) : legCount (b.image (movSlot π)) = legCount b ∘ movKey π.symm := by
  funext k
  unfold legCount
  simp only [Function.comp_apply]
  rw [Finset.filter_image, Finset.card_image_of_injective _ (movSlot_inj π)]
  congr 1
  apply Finset.filter_congr
  rintro ⟨a, s, c, i⟩ _
  rcases k with ⟨ka, ks, kc⟩
  simp only [movSlot, movKey, Prod.mk.injEq]
  constructor
  · rintro ⟨rfl, rfl, rfl⟩; simp
  · rintro ⟨rfl, rfl, rfl⟩; simp

theorem overcount_mov (S : Finset (Finset Slot)) : overcount (movScheme π S) = overcount S := by
  classical
  have hinj : Function.Injective (fun f : Nat × Nat × Bool → Nat => f ∘ movKey π.symm) := by
    intro f g h
    funext k
    have := congrFun h (movKey π k)
    simpa [movKey] using this
  have e : (movScheme π S).image legCount = (S.image legCount).image (fun f => f ∘ movKey π.symm) := by
    unfold movScheme
    rw [Finset.image_image, Finset.image_image]
    apply Finset.image_congr
    intro b _
    exact legCount_mov b
  have h1 : overcount (movScheme π S) = ∏ k ∈ (movScheme π S).image legCount, (((movScheme π S).filter (fun b => legCount b = k)).card - 1).factorial := by
    unfold overcount; congr!
  have h2 : overcount S = ∏ k ∈ S.image legCount, ((S.filter (fun b => legCount b = k)).card - 1).factorial := by
    unfold overcount; congr!
  rw [h1, h2, e, Finset.prod_image (fun a _ b _ h => hinj h)]
  apply Finset.prod_congr rfl
  intro k _
  congr 2
  unfold movScheme
  rw [Finset.filter_image, Finset.card_image_of_injective _ (movImage_inj π)]
  congr 1
  apply Finset.filter_congr
  intro b _
  rw [legCount_mov]
  exact hinj.eq_iff

theorem sign_mov {o : OSI} {m : Int} {L : List Slot} (hn : L.Nodup) {S : Finset (Finset Slot)} (hsub : ∀ b ∈ S, b ⊆ L.toFinset)
    (hcon : ∀ b ∈ S, IsContraction o m b) (hdis : ∀ b ∈ S, ∀ b' ∈ S, b ≠ b' → Disjoint b b') :
    orderSign (L.map (movSlot π)) ((movScheme π S).toList.flatMap (conOrder (L.map (movSlot π))) ++ leftOver (L.map (movSlot π)) (movScheme π S)) =
      orderSign L (S.toList.flatMap (conOrder L) ++ leftOver L S) := by
  have hev : ∀ b ∈ S, Even (conOrder L b).length := fun b hb => (con_lengths hn (hsub b hb) (hcon b hb)).2
  have hmem : ∀ b y, y ∈ conOrder L b → y ∈ L ∧ y ∈ b := fun b y hy => mem_blk.1 ((conOrder_perm hn b).subset hy)
  have hcd : ∀ b ∈ S, ∀ b' ∈ S, b ≠ b' → ∀ a ∈ conOrder L b, a ∉ conOrder L b' := fun b hb b' hb' hne a ha ha' =>
    Finset.disjoint_left.1 (hdis b hb b' hb' hne) (hmem b a ha).2 (hmem b' a ha').2
  have hp : (movScheme π S).toList.Perm (S.toList.map (fun b => b.image (movSlot π))) := by
    rw [List.perm_ext_iff_of_nodup (Finset.nodup_toList _) ((Finset.nodup_toList S).map (movImage_inj π))]
    intro b
    rw [Finset.mem_toList, List.mem_map]
    unfold movScheme
    simp only [Finset.mem_image, Finset.mem_toList]
  rw [orderSign_eq, orderSign_eq, sgR_flat, sgR_flat, leftOver_mov]
  have c1 : ((movScheme π S).toList.map (fun b => sgR (posZ (L.map (movSlot π))) (conOrder (L.map (movSlot π)) b))).prod =
      (S.toList.map (fun b => sgR (posZ L) (conOrder L b))).prod := by
    rw [(hp.map _).prod_eq, List.map_map]
    congr 1
    apply List.map_congr_left
    intro b _
    simp only [Function.comp_apply]
    rw [conOrder_mov, sgR_mov]
  have c2 : ((movScheme π S).toList.map (fun b => crossSg (posZ (L.map (movSlot π))) (conOrder (L.map (movSlot π)) b) ((leftOver L S).map (movSlot π)))).prod =
      (S.toList.map (fun b => crossSg (posZ L) (conOrder L b) (leftOver L S))).prod := by
    rw [(hp.map _).prod_eq, List.map_map]
    congr 1
    apply List.map_congr_left
    intro b hb
    simp only [Function.comp_apply]
    rw [conOrder_mov, crossSg_mov]
  have c3 : pairProd (fun b b' => crossSg (posZ (L.map (movSlot π))) (conOrder (L.map (movSlot π)) b) (conOrder (L.map (movSlot π)) b')) (movScheme π S).toList =
      pairProd (fun b b' => crossSg (posZ L) (conOrder L b) (conOrder L b')) S.toList := by
    rw [pairProd_perm hp ?_, pairProd_map]
    · simp only [conOrder_mov, crossSg_mov]
    · intro c hc c' hc'
      by_cases hcc : c = c'
      · rw [hcc]
      unfold movScheme at hc hc'
      obtain ⟨b, hb, rfl⟩ := Finset.mem_image.1 (Finset.mem_toList.1 hc)
      obtain ⟨b', hb', rfl⟩ := Finset.mem_image.1 (Finset.mem_toList.1 hc')
      have hne : b ≠ b' := fun e => hcc (by rw [e])
      simp only [conOrder_mov, crossSg_mov]
      exact crossSg_symm (hev b' hb') (fun a ha a' ha' h => hcd b hb b' hb' hne a ha (by
        rw [posZ_inj (hmem b a ha).1 h]; exact ha'))
  rw [c1, c2, c3, sgR_mov]

end

section
variable {Ω R A : Type} [Inhabited Ω] [DecidableEq Ω] [CommRing R] [Ring A] [Algebra R A] {π : Equiv.Perm Nat}

omit [Inhabited Ω] in
theorem conVal_mov {v v' : OrbSystem Ω R A} (hT : v'.T = v.T) {o o' : OSI} (ho : SameSpaces π o o') {L : List Slot} (hL : ∀ y ∈ L, y.space < o.spaces.length) (x : Slot → Ω) (b : Finset Slot) :
    conVal v' o' (L.map (movSlot π)) x (b.image (movSlot π)) = conVal v o L (fun y => x (movSlot π y)) b := by
  unfold conVal
  rw [creOf_mov, annOf_mov, hT]
  have hc : ∀ y ∈ creOf L b, y ∈ L := fun y hy => (mem_creOf.1 hy).1
  generalize creOf L b = cs at *
  generalize annOf L b = as at *
  have hidx : ∀ y, (L.map (movSlot π)).idxOf (movSlot π y) = L.idxOf y := by
    intro y
    have := posZ_mov (π := π) L y
    unfold posZ at this
    omega
  match cs, as with
  | [c], [a] =>
    simp only [List.map_cons, List.map_nil, hidx]
    have : o'.spaceType ((movSlot π c).space : Int) = o.spaceType (c.space : Int) := ho.type _ (hL c (hc c (by simp)))
    rw [this]
  | [], as => simp [Function.comp_def]
  | c :: c' :: cs, as => simp [Function.comp_def]
  | [c], [] => simp [Function.comp_def]
  | [c], a :: a' :: as => simp [Function.comp_def]

theorem schemeTerm_mov {v v' : OrbSystem Ω R A} (hT : v'.T = v.T) (hO : v'.op = v.op) {o o' : OSI} (ho : SameSpaces π o o') {m : Int} {L : List Slot} (hn : L.Nodup)
    (hL : ∀ y ∈ L, y.space < o.spaces.length) {S : Finset (Finset Slot)} (hsub : ∀ b ∈ S, b ⊆ L.toFinset)
    (hcon : ∀ b ∈ S, IsContraction o m b) (hdis : ∀ b ∈ S, ∀ b' ∈ S, b ≠ b' → Disjoint b b') (x : Slot → Ω) :
    schemeTerm v' o' (L.map (movSlot π)) x (movScheme π S) = schemeTerm v o L (fun y => x (movSlot π y)) S := by
  unfold schemeTerm
  rw [sign_mov hn hsub hcon hdis, leftOver_mov, List.map_map, hO]
  congr 1
  congr 1
  unfold movScheme
  rw [Finset.prod_image (fun a _ b _ h => movImage_inj π h)]
  exact Finset.prod_congr rfl (fun b _ => conVal_mov hT ho hL x b)


theorem slotsFrom_space_lt {ns : Nat} {ops : OperatorProduct} : ∀ j, ∀ y ∈ slotsFrom ns j ops, y.space < ns := by
  induction ops with
  | nil => intro j y h; cases h
  | cons p ops ih =>
    intro j y h
    rw [slotsFrom, List.mem_append] at h
    rcases h with h | h
    · unfold opSlots creSlots annSlots at h
      simp only [List.mem_append, List.mem_reverse, List.mem_flatMap, List.mem_map, List.mem_range] at h
      rcases h with ⟨s, hs, _, _, rfl⟩ | ⟨s, hs, _, _, rfl⟩ <;> exact hs
    · exact ih _ y h

theorem range_mov {o o' : OSI} (ho : SameSpaces π o o') : ((List.range o.spaces.length).map π).Perm (List.range o.spaces.length) := by
  rw [List.perm_ext_iff_of_nodup (List.nodup_range.map π.injective) List.nodup_range]
  intro t
  rw [List.mem_map, List.mem_range]
  constructor
  · rintro ⟨s, hs, rfl⟩
    exact (ho.lt s).2 (List.mem_range.1 hs)
  · intro ht
    refine ⟨π.symm t, List.mem_range.2 ((ho.lt _).1 (by simpa using ht)), by simp⟩

theorem sameSpaces_symm {o o' : OSI} (ho : SameSpaces π o o') : SameSpaces π.symm o' o where
  num := ho.num.symm
  lt s := by
    rw [ho.num, ← ho.lt]
    simp
  type s hs := by
    rw [ho.num] at hs
    have h1 : π.symm s < o.spaces.length := (ho.lt _).1 (by simpa using hs)
    have := ho.type _ h1
    simp only [Equiv.apply_symm_apply] at this
    exact this.symm

/-- Wick's theorem does not depend on the order of the orbital spaces -/
theorem wickSum_mov {v v' : OrbSystem Ω R A} (hT : v'.T = v.T) (hO : v'.op = v.op) {o o' : OSI} (ho : SameSpaces π o o') (hdom : ∀ s < o.spaces.length, v'.dom ((π s : Nat) : Int) = v.dom (s : Int))
    (hv : v.Antisymmetric) (hac : v.Anticommute) {m : Int} {ops ops' : OperatorProduct} (h : List.Forall₂ (Operator.SameOp π o.spaces.length) ops ops') (minr maxr : Int) :
    wickSum v' o' m ops' minr maxr overcount = wickSum v o m ops minr maxr overcount := by
  have hv' : v'.Antisymmetric := fun l => by rw [hT]; exact hv l
  have hac' : v'.Anticommute := by unfold OrbSystem.Anticommute; rw [hO]; exact hac
  have hr := range_mov ho
  have hsl : slotsP ((List.range o.spaces.length).map π) 0 ops' = (slots o.spaces.length ops).map (movSlot π) := mov_slotsP h 0
  have hrel := relist_slots hr ops'
  rw [hsl] at hrel
  have hn := nodup_slots o.spaces.length ops
  have hsp : ∀ y ∈ slots o.spaces.length ops, y.space < o.spaces.length := slotsFrom_space_lt 0
  have hsch : schemes o' m ops' minr maxr = (schemes o m ops minr maxr).image (movScheme π) := by
    ext S
    rw [Finset.mem_image, mem_schemes]
    constructor
    · intro hS
      refine ⟨movScheme π.symm S, mem_schemes.2 (scheme_mov (sameSpaces_symm ho) ?_ hS), movScheme_symm π.symm S⟩
      rw [ho.num]
      have := (hrel.perm.map (movSlot π.symm))
      rw [List.map_map] at this
      refine (List.Perm.of_eq ?_).trans this
      conv_lhs => rw [← List.map_id (slots o.spaces.length ops)]
      apply List.map_congr_left
      intro y _
      exact (movSlot_symm π y).symm
    · rintro ⟨S', hS, rfl⟩
      refine scheme_mov ho ?_ (mem_schemes.1 hS)
      rw [ho.num]
      exact hrel.perm.symm
  have hinj : Function.Injective (movScheme π) := fun a b h => by rw [← movScheme_symm π a, h, movScheme_symm]
  have point : ∀ x : Slot → Ω,
      opElements v' o'.spaces.length ops' x • ∑ S ∈ schemes o' m ops' minr maxr, overcount S • schemeTerm v' o' (slots o'.spaces.length ops') x S =
      (fun z : Slot → Ω => opElements v o.spaces.length ops z • ∑ S ∈ schemes o m ops minr maxr, overcount S • schemeTerm v o (slots o.spaces.length ops) z S)
        (fun y => x (movSlot π y)) := by
    intro x
    beta_reduce
    have hT' : elemsP v' ((List.range o.spaces.length).map π) 0 ops' x = opElements v o.spaces.length ops (fun y => x (movSlot π y)) := by
      rw [mov_elemsP h, opElements_eq]
      have : ∀ (ops : OperatorProduct) k (x : Slot → Ω), elemsFrom v' o.spaces.length k ops x = elemsFrom v o.spaces.length k ops x := by
        intro ops
        induction ops with
        | nil => intro k x; rfl
        | cons p ops ih => intro k x; rw [elemsFrom, elemsFrom, ih, elemAt, elemAt, hT]
      exact this _ _ _
    rw [ho.num, hsch, Finset.sum_image (fun a _ b _ h => hinj h), opElements_perm hv' hr, hT', hsl]
    have : ∀ S ∈ schemes o m ops minr maxr, overcount (movScheme π S) • schemeTerm v' o' (slots o.spaces.length ops') x (movScheme π S) =
        relSign ((slots o.spaces.length ops).map (movSlot π)) (slots o.spaces.length ops') • (overcount S • schemeTerm v o (slots o.spaces.length ops) (fun y => x (movSlot π y)) S) := by
      intro S hS
      obtain ⟨s1, s2, s3, s4, s5⟩ := mem_schemes.1 hS
      obtain ⟨t1, t2, t3, _, _⟩ := scheme_mov (ops' := ops') ho (by rw [ho.num]; exact hrel.perm.symm) (mem_schemes.1 hS)
      rw [overcount_mov, hrel.term ?_ t3 (fun b hb => ?_) hac' o' x, schemeTerm_mov hT hO ho hn hsp s1 s2 s3, smul_comm]
      · intro b hb y hy
        have := t1 b hb hy
        rw [List.mem_toFinset, ho.num] at this
        exact List.mem_toFinset.2 (hrel.perm.mem_iff.2 this)
      · obtain ⟨s, _, hs, _⟩ := t2 b hb
        exact ⟨s, hs⟩
    rw [Finset.sum_congr rfl this, ← Finset.smul_sum, smul_comm, smul_assoc, smul_smul, relSign_sq, one_smul]
  unfold wickSum
  rw [sumOver_congr (fun x _ => point x)]
  refine sumOver_bij (slots o.spaces.length ops).toFinset (slots o'.spaces.length ops').toFinset
    (fun y => v.dom y.space) (fun y => v'.dom y.space) (movSlot π) ?_ ?_ ?_ ?_ (fun z => opElements v o.spaces.length ops z •
      ∑ S ∈ schemes o m ops minr maxr, overcount S • schemeTerm v o (slots o.spaces.length ops) z S) ?_
  · intro y hy
    rw [List.mem_toFinset] at hy ⊢
    rw [ho.num]
    exact hrel.perm.mem_iff.1 (List.mem_map_of_mem hy)
  · intro a _ b _ h; exact movSlot_inj _ h
  · intro y hy
    rw [List.mem_toFinset, ho.num, ← hrel.perm.mem_iff] at hy
    obtain ⟨z, hz, rfl⟩ := List.mem_map.1 hy
    exact ⟨z, List.mem_toFinset.2 hz, rfl⟩
  · intro y hy
    exact (hdom y.space (hsp y (List.mem_toFinset.1 hy))).symm
  · intro x y h
    have h' : ∀ z ∈ slots o.spaces.length ops, x z = y z := fun z hz => h z (List.mem_toFinset.2 hz)
    have e1 : opElements v o.spaces.length ops x = opElements v o.spaces.length ops y := opElements_congr v _ ops h'
    beta_reduce
    rw [e1]
    congr 1
    apply Finset.sum_congr rfl
    intro S _
    unfold schemeTerm
    rw [Finset.prod_congr rfl (fun b _ => conVal_congr (v := v) (o := o) h' b)]
    congr 3
    apply List.map_congr_left
    intro z hz
    rw [h' z (mem_leftOver.1 hz).1]

end
end Wick
end Wicked
