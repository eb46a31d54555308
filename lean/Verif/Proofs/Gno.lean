import Verif.Proofs.GnoSets
import Verif.Proofs.WickInv
import Verif.Spec.Gno
/-! Generalised normal order: sums over contractions of a list -/
namespace Wicked
namespace Gno

/-! ### signs -/
section
variable {α : Type} [DecidableEq α]

/-- position in a list -/
def posI (L : List α) (x : α) : Int := (L.idxOf x : Int)

theorem posI_inj {L : List α} {x y : α} (hx : x ∈ L) (h : posI L x = posI L y) : x = y := by
  unfold posI at h
  exact (List.idxOf_inj hx).1 (by exact_mod_cast h)

theorem posI_sorted {L : List α} (hn : L.Nodup) : L.Pairwise (fun a b => posI L a < posI L b) := by
  rw [List.pairwise_iff_getElem]
  intro i j hi hj hij
  unfold posI
  rw [hn.idxOf_getElem, hn.idxOf_getElem]
  exact_mod_cast hij

theorem listSign_eq (L P : List α) : listSign L P = sgR (posI L) P := by
  induction P with
  | nil => rfl
  | cons y P ih =>
    rw [listSign, ih]
    unfold sgR
    rw [pairProd]
    congr 1
    clear ih
    induction P with
    | nil => rfl
    | cons z Q ih =>
      rw [List.countP_cons, List.map_cons, List.prod_cons, ← ih]
      unfold posI
      by_cases h : L.idxOf z < L.idxOf y
      · simp [h, pow_succ]
      · simp [h]

theorem crossSg_eq {r : α → Int} {l m : List α} (hl : l.Nodup) (hm : m.Nodup) : crossSg r l m = sg r l.toFinset m.toFinset := by
  unfold crossSg sg
  rw [List.prod_toFinset _ hl]
  congr 1
  apply List.map_congr_left
  intro x _
  rw [List.prod_toFinset _ hm]

theorem mem_partOf {L : List α} {b : Finset α} {x : α} : x ∈ partOf L b ↔ x ∈ L ∧ x ∈ b := by
  unfold partOf; rw [List.mem_filter]; simp

theorem partOf_toFinset {L : List α} {b : Finset α} (h : b ⊆ L.toFinset) : (partOf L b).toFinset = b := by
  ext x
  rw [List.mem_toFinset, mem_partOf]
  exact ⟨fun h' => h'.2, fun h' => ⟨List.mem_toFinset.1 (h h'), h'⟩⟩

theorem partOf_nodup {L : List α} (hn : L.Nodup) (b : Finset α) : (partOf L b).Nodup := hn.filter _

theorem partOf_length {L : List α} (hn : L.Nodup) {b : Finset α} (h : b ⊆ L.toFinset) : (partOf L b).length = b.card := by
  rw [← List.toFinset_card_of_nodup (partOf_nodup hn b), partOf_toFinset h]

theorem partOf_sorted {L : List α} {r : α → Int} (hr : L.Pairwise (fun a b => r a < r b)) (b : Finset α) : sgR r (partOf L b) = 1 :=
  sgR_sorted ((hr.filter _).imp (fun h => h.le))

theorem restOf_eq (L : List α) (S : Finset (Finset α)) : restOf L S = partOf L (rest L.toFinset S) := by
  unfold restOf partOf
  apply List.filter_congr
  intro x hx
  congr 1
  apply propext
  rw [mem_rest]
  exact ⟨fun h => ⟨List.mem_toFinset.2 hx, h⟩, fun h => h.2⟩

theorem partOf_partOf {L : List α} {I b : Finset α} (h : b ⊆ I) : partOf (partOf L I) b = partOf L b := by
  unfold partOf
  rw [List.filter_filter]
  apply List.filter_congr
  intro x _
  by_cases hx : x ∈ b
  · simp [hx, h hx]
  · simp [hx]

theorem minus_subset (I : Finset α) (bs : List (Finset α)) : minus I bs ⊆ I := fun _ hx => (mem_minus.1 hx).1

variable {R : Type} [CommRing R]

theorem sign_coefL {L : List α} {r : α → Int} (hn : L.Nodup) (hr : L.Pairwise (fun a b => r a < r b)) (k : Finset α → R) (bs : List (Finset α)) :
    ∀ I : Finset α, I ⊆ L.toFinset → (∀ b ∈ bs, b ⊆ I) → bs.Pairwise Disjoint →
    ((sgR r (bs.flatMap (partOf L) ++ partOf L (minus I bs)) : Int) : R) * (bs.map k).prod = coefL r k bs I := by
  induction bs with
  | nil =>
    intro I hI _ _
    simp only [List.flatMap_nil, List.nil_append, minus, List.map_nil, List.prod_nil, mul_one, coefL]
    rw [partOf_sorted hr]; simp
  | cons b bs ih =>
    intro I hI hb hd
    rw [List.pairwise_cons] at hd
    have hsub : ∀ c ∈ bs, c ⊆ I \ b := fun c hc x hx =>
      Finset.mem_sdiff.2 ⟨hb c (by simp [hc]) hx, fun h' => Finset.disjoint_left.1 (hd.1 c hc) h' hx⟩
    have hI' : I \ b ⊆ L.toFinset := Finset.sdiff_subset.trans hI
    rw [coefL, ← ih (I \ b) hI' hsub hd.2, minus, List.flatMap_cons, List.append_assoc, sgR_app, partOf_sorted hr, crossSg_eq (partOf_nodup hn b),
      partOf_toFinset ((hb b (by simp)).trans hI)]
    · have e : (bs.flatMap (partOf L) ++ partOf L (minus (I \ b) bs)).toFinset = I \ b := by
        ext x
        rw [List.mem_toFinset, List.mem_append, List.mem_flatMap, mem_partOf, mem_minus]
        constructor
        · rintro (⟨c, hc, hx⟩ | ⟨_, hx, _⟩)
          · exact hsub c hc (mem_partOf.1 hx).2
          · exact hx
        · intro hx
          by_cases hc : ∃ c ∈ bs, x ∈ c
          · obtain ⟨c, hc, hxc⟩ := hc
            exact Or.inl ⟨c, hc, mem_partOf.2 ⟨List.mem_toFinset.1 (hI' hx), hxc⟩⟩
          · push Not at hc
            exact Or.inr ⟨List.mem_toFinset.1 (hI' hx), hx, hc⟩
      rw [e, List.map_cons, List.prod_cons]
      push_cast
      ring
    · rw [List.nodup_append]
      refine ⟨?_, partOf_nodup hn _, ?_⟩
      · rw [List.nodup_flatMap]
        refine ⟨fun c _ => partOf_nodup hn c, ?_⟩
        exact hd.2.imp (fun h x hx hx' => Finset.disjoint_left.1 h (mem_partOf.1 hx).2 (mem_partOf.1 hx').2)
      · rintro x hx y hy rfl
        obtain ⟨c, hc, hx⟩ := List.mem_flatMap.1 hx
        exact (mem_minus.1 (mem_partOf.1 hy).2).2 c hc (mem_partOf.1 hx).2

variable {M B : Type} [AddCommGroup B] [Module R B]

/-- the value of a block -/
def kv (κ : List M → R) (f : α → M) (L : List α) (b : Finset α) : R := κ ((partOf L b).map f)

theorem conSets_eq (L : List α) : conSets L = bsets L.toFinset := rfl

theorem conTerm_eq (κ : List M → R) (N : List M → B) (f : α → M) {L : List α} (hn : L.Nodup) {S : Finset (Finset α)} (hS : S ∈ bsets L.toFinset) :
    conTerm κ N f L S = coef (posI L) (kv κ f L) S L.toFinset • N ((partOf L (rest L.toFinset S)).map f) := by
  unfold conTerm coef
  rw [← sign_coefL hn (posI_sorted hn) (kv κ f L) S.toList L.toFinset (Finset.Subset.refl _) (fun b hb => (mem_bsets.1 hS).1 b (Finset.mem_toList.1 hb))
    (bsets_pairwise hS), minus_toList, listSign_eq, restOf_eq, Finset.prod_map_toList]
  rfl

/-! ### renaming -/
variable {β : Type} [DecidableEq β]

theorem partOf_map {e : β → α} (he : Function.Injective e) (L : List β) (b : Finset β) : partOf (L.map e) (b.image e) = (partOf L b).map e := by
  unfold partOf
  rw [List.filter_map]
  congr 1
  apply List.filter_congr
  intro x _
  simp [he.eq_iff]

theorem sg_image {e : β → α} (he : Function.Injective e) (r : α → Int) (b I : Finset β) : sg r (b.image e) (I.image e) = sg (fun x => r (e x)) b I := by
  unfold sg
  rw [Finset.prod_image (fun x _ y _ h => he h)]
  apply Finset.prod_congr rfl
  intro x _
  rw [Finset.prod_image (fun x _ y _ h => he h)]

theorem coefL_image {e : β → α} (he : Function.Injective e) (r : α → Int) (k : Finset α → R) (bs : List (Finset β)) (I : Finset β) :
    coefL r k (bs.map (Finset.image e)) (I.image e) = coefL (fun x => r (e x)) (fun b => k (b.image e)) bs I := by
  induction bs generalizing I with
  | nil => rfl
  | cons b bs ih =>
    rw [List.map_cons, coefL, coefL, ← Finset.image_sdiff _ _ he, sg_image he, ih]

theorem rest_image {e : β → α} (he : Function.Injective e) (I : Finset β) (S : Finset (Finset β)) : rest (I.image e) (S.image (Finset.image e)) = (rest I S).image e := by
  ext x
  rw [mem_rest, Finset.mem_image, Finset.mem_image]
  constructor
  · rintro ⟨⟨y, hy, rfl⟩, h⟩
    refine ⟨y, mem_rest.2 ⟨hy, fun b hb hyb => ?_⟩, rfl⟩
    exact h _ (Finset.mem_image_of_mem _ hb) (Finset.mem_image_of_mem _ hyb)
  · rintro ⟨y, hy, rfl⟩
    obtain ⟨hy, h⟩ := mem_rest.1 hy
    refine ⟨⟨y, hy, rfl⟩, fun b hb hyb => ?_⟩
    obtain ⟨c, hc, rfl⟩ := Finset.mem_image.1 hb
    obtain ⟨z, hz, hzy⟩ := Finset.mem_image.1 hyb
    exact h c hc (he hzy ▸ hz)

theorem posI_map {e : β → α} (he : Function.Injective e) (L : List β) (x : β) : posI (L.map e) (e x) = posI L x := by
  unfold posI
  congr 1
  induction L with
  | nil => rfl
  | cons y L ih =>
    rw [List.map_cons, List.idxOf_cons, List.idxOf_cons, ih]
    by_cases h : y = x
    · subst h; rw [beq_self_eq_true, beq_self_eq_true]
    · rw [beq_false_of_ne h, beq_false_of_ne (fun h' => h (he h'))]

theorem bsets_image {e : β → α} (he : Function.Injective e) {I : Finset β} {S : Finset (Finset β)} (h : S ∈ bsets I) : S.image (Finset.image e) ∈ bsets (I.image e) := by
  obtain ⟨h1, h2, h3⟩ := mem_bsets.1 h
  refine mem_bsets.2 ⟨?_, ?_, ?_⟩
  · intro b hb
    obtain ⟨c, hc, rfl⟩ := Finset.mem_image.1 hb
    exact Finset.image_subset_image (h1 c hc)
  · intro b hb
    obtain ⟨c, hc, rfl⟩ := Finset.mem_image.1 hb
    exact (h2 c hc).image e
  · intro b hb b' hb' hne
    obtain ⟨c, hc, rfl⟩ := Finset.mem_image.1 hb
    obtain ⟨c', hc', rfl⟩ := Finset.mem_image.1 hb'
    rw [Finset.disjoint_image he]
    exact h3 c hc c' hc' (fun h => hne (by rw [h]))

theorem conTerm_image (κ : List M → R) (hκ : ∀ l, ¬ Even l.length → κ l = 0) (N : List M → B) (f : α → M) {e : β → α} (he : Function.Injective e) {L : List β} (hn : L.Nodup)
    {S : Finset (Finset β)} (hS : S ∈ bsets L.toFinset) : conTerm κ N f (L.map e) (S.image (Finset.image e)) = conTerm κ N (fun x => f (e x)) L S := by
  have eL : (L.map e).toFinset = L.toFinset.image e := by
    ext x; simp [List.mem_toFinset]
  have hS' : S.image (Finset.image e) ∈ bsets (L.map e).toFinset := by rw [eL]; exact bsets_image he hS
  rw [conTerm_eq κ N f (hn.map he) hS', conTerm_eq κ N _ hn hS, eL, rest_image he, partOf_map he, List.map_map]
  congr 1
  have hp : (S.image (Finset.image e)).toList.Perm (S.toList.map (Finset.image e)) := by
    rw [List.perm_ext_iff_of_nodup (Finset.nodup_toList _) ((Finset.nodup_toList S).map (Finset.image_injective he))]
    intro b
    simp
  unfold coef
  rw [eL] at hS'
  rw [coefL_perm hp (fun b hb => (mem_bsets.1 hS').1 b (Finset.mem_toList.1 hb)) (bsets_pairwise hS'), coefL_image he]
  · apply coefL_congr (fun b hb => (mem_bsets.1 hS).1 b (Finset.mem_toList.1 hb)) (bsets_pairwise hS)
    · intro x _ y _
      rw [posI_map he, posI_map he]
    · intro b _
      unfold kv
      rw [partOf_map he, List.map_map]
      rfl
  · intro b hb hne
    apply hκ
    rw [List.length_map, partOf_length (hn.map he)]
    · exact hne
    · rw [eL]; exact (mem_bsets.1 hS').1 b (Finset.mem_toList.1 hb)
  · intro x hx y _ h
    exact posI_inj (by rw [← eL] at hx; exact List.mem_toFinset.1 hx) h

theorem sum_image (κ : List M → R) (hκ : ∀ l, ¬ Even l.length → κ l = 0) (N : List M → B) (f : α → M) {e : β → α} (he : Function.Injective e) {L : List β} (hn : L.Nodup) :
    ∑ S ∈ bsets (L.map e).toFinset, conTerm κ N f (L.map e) S = ∑ S ∈ bsets L.toFinset, conTerm κ N (fun x => f (e x)) L S := by
  symm
  have eL : (L.map e).toFinset = L.toFinset.image e := by
    ext x; simp [List.mem_toFinset]
  refine Finset.sum_bij (fun S _ => S.image (Finset.image e)) ?_ ?_ ?_ ?_
  · intro S hS
    rw [eL]; exact bsets_image he hS
  · intro S _ S' _ h
    exact Finset.image_injective (Finset.image_injective he) h
  · intro T hT
    rw [eL] at hT
    obtain ⟨h1, h2, h3⟩ := mem_bsets.1 hT
    have hb : ∀ b ∈ T, (b.preimage e he.injOn).image e = b := by
      intro b hb
      ext x
      rw [Finset.mem_image]
      constructor
      · rintro ⟨y, hy, rfl⟩
        exact Finset.mem_preimage.1 hy
      · intro hx
        obtain ⟨y, _, rfl⟩ := Finset.mem_image.1 (h1 b hb hx)
        exact ⟨y, Finset.mem_preimage.2 hx, rfl⟩
    refine ⟨T.image (fun b => b.preimage e he.injOn), mem_bsets.2 ⟨?_, ?_, ?_⟩, ?_⟩
    · intro b hb'
      obtain ⟨c, hc, rfl⟩ := Finset.mem_image.1 hb'
      intro x hx
      have := h1 c hc (Finset.mem_preimage.1 hx)
      obtain ⟨y, hy, hyx⟩ := Finset.mem_image.1 this
      exact he hyx ▸ hy
    · intro b hb'
      obtain ⟨c, hc, rfl⟩ := Finset.mem_image.1 hb'
      have := h2 c hc
      rw [← hb c hc] at this
      exact Finset.image_nonempty.1 this
    · intro b hb' b' hb'' hne
      obtain ⟨c, hc, rfl⟩ := Finset.mem_image.1 hb'
      obtain ⟨c', hc', rfl⟩ := Finset.mem_image.1 hb''
      refine Finset.disjoint_left.2 (fun x hx hx' => ?_)
      exact Finset.disjoint_left.1 (h3 c hc c' hc' (fun h => hne (by rw [h]))) (Finset.mem_preimage.1 hx) (Finset.mem_preimage.1 hx')
    · rw [Finset.image_image]
      ext b
      rw [Finset.mem_image]
      constructor
      · rintro ⟨c, hc, rfl⟩
        simpa [hb c hc] using hc
      · intro hb'
        exact ⟨b, hb', hb b hb'⟩
  · intro S hS
    exact (conTerm_image κ hκ N f he hn hS).symm

/-- the sum over contractions, for any names of the operators -/
theorem conSum_eq (κ : List M → R) (hκ : ∀ l, ¬ Even l.length → κ l = 0) (N : List M → B) (f : α → M) {L : List α} (hn : L.Nodup) :
    conSum κ N (L.map f) = ∑ S ∈ bsets L.toFinset, conTerm κ N f L S := by
  have hlen : (L.map f).length = L.length := List.length_map f
  let e : Fin (L.map f).length → α := fun i => L.get (i.cast hlen)
  have he : Function.Injective e := by
    intro i j h
    have := hn.injective_get h
    exact Fin.cast_injective hlen this
  have hL : (List.finRange (L.map f).length).map e = L := by
    apply List.ext_getElem
    · simp
    · intro i h1 h2
      simp [e]
  unfold conSum
  rw [conSets_eq]
  conv_rhs => rw [← hL]
  rw [sum_image κ hκ N f he (List.nodup_finRange _)]
  have : (L.map f).get = fun x => f (e x) := by
    funext i
    simp [e]
  rw [this]

/-- the sum over contractions of some of the operators of a list -/
theorem conSum_part (κ : List M → R) (hκ : ∀ l, ¬ Even l.length → κ l = 0) (N : List M → B) (f : α → M) {L : List α} (hn : L.Nodup) {I : Finset α} (hI : I ⊆ L.toFinset) :
    conSum κ N ((partOf L I).map f) = ∑ S ∈ bsets I, coef (posI L) (kv κ f L) S I • N ((partOf L (rest I S)).map f) := by
  rw [conSum_eq κ hκ N f (partOf_nodup hn I), partOf_toFinset hI]
  apply Finset.sum_congr rfl
  intro S hS
  have hS' : S ∈ bsets (partOf L I).toFinset := by rw [partOf_toFinset hI]; exact hS
  rw [conTerm_eq κ N f (partOf_nodup hn I) hS', partOf_toFinset hI, partOf_partOf (rest_subset I S)]
  congr 1
  apply coefL_congr (fun b hb => (mem_bsets.1 hS).1 b (Finset.mem_toList.1 hb)) (bsets_pairwise hS)
  · intro x hx y hy
    have hsub : (partOf L I).Sublist L := List.filter_sublist
    have h1 := posI_sorted (partOf_nodup hn I)
    have h2 : (partOf L I).Pairwise (fun a b => posI L a < posI L b) := (posI_sorted hn).sublist hsub
    have hx' : x ∈ partOf L I := mem_partOf.2 ⟨List.mem_toFinset.1 (hI hx), hx⟩
    have hy' : y ∈ partOf L I := mem_partOf.2 ⟨List.mem_toFinset.1 (hI hy), hy⟩
    have key : ∀ x ∈ partOf L I, ∀ y ∈ partOf L I, posI (partOf L I) x < posI (partOf L I) y → posI L x < posI L y := by
      intro x hx y hy hlt
      have h12 := h1.and h2
      rw [List.pairwise_iff_getElem] at h12
      obtain ⟨i, hi, rfl⟩ := List.mem_iff_getElem.1 hx
      obtain ⟨j, hj, rfl⟩ := List.mem_iff_getElem.1 hy
      rcases _root_.lt_trichotomy i j with h | h | h
      · exact (h12 i j hi hj h).2
      · subst h; omega
      · have := (h12 j i hj hi h).1; omega
    constructor
    · exact key y hy' x hx'
    · intro hlt
      rcases _root_.lt_trichotomy (posI (partOf L I) y) (posI (partOf L I) x) with h | h | h
      · exact h
      · rw [posI_inj hy' h] at hlt; omega
      · have := key x hx' y hy' h; omega
  · intro b hb
    unfold kv
    rw [partOf_partOf ((mem_bsets.1 hS).1 b (Finset.mem_toList.1 hb))]

end
end Gno
end Wicked
