import Verif.Spec.OrbitalSum
import Verif.Proofs.WickVal
/-! The contribution of a listing does not depend on the order of its parts, and how it changes under
renaming of the operators -/
namespace Wicked
open CppLt CppEq Rational

/-- sign of the exchanged pairs between two lists -/
def crossSg {α : Type _} (r : α → Int) (l m : List α) : Int :=
  (l.map (fun a => (m.map (fun b => if r b < r a then -1 else (1 : Int))).prod)).prod

theorem crossSg_append_right {α : Type _} (r : α → Int) (l m m' : List α) :
    crossSg r l (m ++ m') = crossSg r l m * crossSg r l m' := by
  unfold crossSg
  rw [← List.prod_map_mul]
  simp only [List.map_append, List.prod_append]

theorem crossSg_nil_right {α : Type _} (r : α → Int) (l : List α) : crossSg r l [] = 1 := by simp [crossSg]

theorem crossSg_flatMap {α β : Type _} (r : α → Int) (f : β → List α) (l : List α) (bs : List β) :
    crossSg r l (bs.flatMap f) = (bs.map (fun b => crossSg r l (f b))).prod := by
  induction bs with
  | nil => simp [crossSg_nil_right]
  | cons b bs ih => rw [List.flatMap_cons, crossSg_append_right, ih, List.map_cons, List.prod_cons]

theorem crossSg_perm {α : Type _} (r : α → Int) {l l' m m' : List α} (h : l.Perm l') (h' : m.Perm m') :
    crossSg r l m = crossSg r l' m' := by
  unfold crossSg
  have : (fun a => (m.map (fun b => if r b < r a then -1 else (1 : Int))).prod) =
      fun a => (m'.map (fun b => if r b < r a then -1 else (1 : Int))).prod := by
    funext a; exact (h'.map _).prod_eq
  rw [this]
  exact (h.map _).prod_eq

theorem prod_neg_even {l : List Int} (h : Even l.length) : (l.map (fun a => -a)).prod = l.prod := by
  have : (l.map (fun a => -a)).prod = (-1) ^ l.length * l.prod := by
    clear h
    induction l with
    | nil => simp
    | cons a l ih => simp only [List.map_cons, List.prod_cons, ih, List.length_cons, pow_succ]; ring
  rw [this, h.neg_one_pow, one_mul]

theorem crossSg_symm {α : Type _} {r : α → Int} {l m : List α} (hm : Even m.length)
    (hr : ∀ a ∈ l, ∀ b ∈ m, r a ≠ r b) : crossSg r l m = crossSg r m l := by
  have key : ∀ l : List α, (∀ a ∈ l, ∀ b ∈ m, r a ≠ r b) → crossSg r l m = crossSg r m l := by
    intro l
    induction l with
    | nil => intro _; simp [crossSg]
    | cons a l ih =>
      intro h
      have h1 : crossSg r m (a :: l) = crossSg r m [a] * crossSg r m l := crossSg_append_right r m [a] l
      have h2 : crossSg r (a :: l) m = crossSg r [a] m * crossSg r l m := by simp [crossSg]
      rw [h1, h2, ih (fun x hx => h x (by simp [hx]))]
      congr 1
      simp only [crossSg, List.map_cons, List.map_nil, List.prod_cons, List.prod_nil, mul_one]
      rw [← prod_neg_even (l := m.map (fun b => if r b < r a then -1 else (1 : Int))) (by simpa using hm), List.map_map]
      congr 1
      apply List.map_congr_left
      intro b hb
      have := h a (by simp) b hb
      simp only [Function.comp_apply]
      by_cases h3 : r b < r a
      · rw [if_pos h3, if_neg (by omega)]; norm_num
      · rw [if_neg h3, if_pos (by omega)]
  exact key l hr

theorem sgR_app {α : Type _} (r : α → Int) (l m : List α) : sgR r (l ++ m) = sgR r l * sgR r m * crossSg r l m := sgR_append r l m

/-- the sign of a listing, sorted by contractions -/
theorem sgR_listing (r : Slot → Int) (bs : List Block) (rs : List Slot) :
    sgR r (bs.flatMap Block.flat ++ rs) =
      (bs.map (fun b => sgR r b.flat * crossSg r b.flat rs)).prod * pairProd (fun b b' => crossSg r b.flat b'.flat) bs * sgR r rs := by
  induction bs with
  | nil => simp [pairProd]
  | cons b bs ih =>
    rw [List.flatMap_cons, List.append_assoc, sgR_app, ih, crossSg_append_right, crossSg_flatMap]
    simp only [List.map_cons, List.prod_cons, pairProd]
    ring

/-- reordering an antisymmetric function -/
theorem sgR_smul_perm {α M : Type _} [AddCommGroup M] {r : α → Int} {l l' : List α} (h : l.Perm l') (hn : (l.map r).Nodup)
    (f : List α → M) (hf : AntisymmFun f) : sgR r l • f l = sgR r l' • f l' := by
  have := permSign_smul_perm (L := l.map (fun a => (a, r a))) (L' := l'.map (fun a => (a, r a))) (h.map _)
    (by rw [List.map_map]; exact hn) f hf
  simp only [List.map_map, Function.comp_def, List.map_id'] at this
  rwa [sgR_eq, sgR_eq]

namespace Wick
section
variable {Ω R A : Type} [Inhabited Ω] [DecidableEq Ω] [CommRing R] [Ring A] [Algebra R A]

/-- the same contraction, with its operators in another order -/
def BSame (b b' : Block) : Prop := b.space = b'.space ∧ b.cre.Perm b'.cre ∧ b.ann.Perm b'.ann

theorem BSame.flat {b b' : Block} (h : BSame b b') : b.flat.Perm b'.flat := h.2.1.append h.2.2

theorem block_inv {o : OSI} {b b' : Block} (hb : BlockOK o b) (h : BSame b b') {v : OrbSystem Ω R A} (hv : v.Antisymmetric)
    {L : List Slot} (hL : ∀ y ∈ b.flat, y ∈ L) (hn : b.flat.Nodup) (x : Slot → Ω) :
    ((sgR (posZ L) b.flat : Int) : R) * bval v o L x b = ((sgR (posZ L) b'.flat : Int) : R) * bval v o L x b' := by
  by_cases h1 : b.cre.length = 1
  · have h2 := hb.len
    obtain ⟨c, hc⟩ := List.length_eq_one_iff.1 h1
    obtain ⟨a, ha⟩ := List.length_eq_one_iff.1 (h2.symm.trans h1)
    have hc' := h.2.1
    have ha' := h.2.2
    rw [hc, List.singleton_perm] at hc'
    rw [ha, List.singleton_perm] at ha'
    have : b = b' := by
      cases b; cases b'
      simp only at hc ha hc' ha'
      simp only [Block.mk.injEq]
      exact ⟨h.1, by rw [hc, hc'], by rw [ha, ha']⟩
    rw [this]
  · have hgen : o.spaceType b.space = .ok .general := by
      by_contra hne
      exact h1 (hb.one hne)
    have hlen := hb.len
    have hp := hb.pos
    have hlc := h.2.1.length_eq
    have hla := h.2.2.length_eq
    have hinj : ∀ y ∈ b.flat, ∀ z ∈ b.flat, posZ L y = posZ L z → y = z := fun y hy z _ e => posZ_inj (hL y hy) e
    have hnc : (b.cre.map (posZ L)).Nodup := ((List.nodup_append.1 hn).1).map_on
      (fun y hy z hz e => hinj y (List.mem_append_left _ hy) z (List.mem_append_left _ hz) e)
    have hna : (b.ann.map (posZ L)).Nodup := ((List.nodup_append.1 hn).2.1).map_on
      (fun y hy z hz e => hinj y (List.mem_append_right _ hy) z (List.mem_append_right _ hz) e)
    have e1 : bval v o L x b = v.T ("lambda".toList ++ intStr (b.cre.length : Int)) ((b.ann.map x).reverse) (b.cre.map x) := by
      unfold bval; rw [hgen]; simp only; rw [if_neg (by omega)]
    have e2 : bval v o L x b' = v.T ("lambda".toList ++ intStr (b.cre.length : Int)) ((b'.ann.map x).reverse) (b'.cre.map x) := by
      unfold bval; rw [← h.1, hgen]; simp only; rw [if_neg (by omega), hlc]
    rw [e1, e2]
    unfold Block.flat
    rw [sgR_app, sgR_app, crossSg_perm _ h.2.1 h.2.2]
    have hcre := sgR_smul_perm (r := posZ L) h.2.1 hnc
      (fun l => v.T ("lambda".toList ++ intStr (b.cre.length : Int)) ((b.ann.map x).reverse) (l.map x)) (by
        intro pre p q post
        simp only [List.map_append, List.map_cons]
        exact (hv _).2 _ _ _ _ _)
    have hann := sgR_smul_perm (r := posZ L) h.2.2 hna
      (fun l => v.T ("lambda".toList ++ intStr (b.cre.length : Int)) ((l.map x).reverse) (b'.cre.map x)) (by
        intro pre p q post
        simp only [List.map_append, List.map_cons, List.reverse_append, List.reverse_cons, List.append_assoc, List.cons_append, List.nil_append]
        exact (hv _).1 _ _ _ _ _)
    simp only [zsmul_eq_mul] at hcre hann
    simp only [Int.cast_mul]
    linear_combination (((sgR (posZ L) b.ann : Int) : R) * ((crossSg (posZ L) b'.cre b'.ann : Int) : R)) * hcre +
      (((sgR (posZ L) b'.cre : Int) : R) * ((crossSg (posZ L) b'.cre b'.ann : Int) : R)) * hann

theorem forall₂_perm_prod {α M : Type _} [CommMonoid M] {Q : α → α → Prop} {f g : α → M} {l l' : List α} (h : List.Forall₂ Q l l')
    (hf : ∀ a ∈ l, ∀ b, Q a b → f a = g b) : (l.map f).prod = (l'.map g).prod := by
  induction h with
  | nil => rfl
  | cons h1 _ ih =>
    rw [List.map_cons, List.map_cons, List.prod_cons, List.prod_cons, hf _ (by simp) _ h1, ih (fun a ha => hf a (by simp [ha]))]

theorem forall₂_pairProd {α M : Type _} [CommMonoid M] {Q : α → α → Prop} {f : α → α → M} {l l' : List α} (h : List.Forall₂ Q l l')
    (hf : ∀ a a' b b', Q a a' → Q b b' → f a b = f a' b') : pairProd f l = pairProd f l' := by
  induction h with
  | nil => rfl
  | cons h1 h2 ih =>
    rw [pairProd, pairProd, ih]
    congr 1
    exact forall₂_perm_prod h2 (fun a _ b hab => hf _ _ _ _ h1 hab)

/-- a listing in another order -/
structure SameListing (bs bs' : List Block) (rs rs' : List Slot) : Prop where
  ex : ∃ cs, bs.Perm cs ∧ List.Forall₂ BSame cs bs'
  rest : rs.Perm rs'

/-- **the contribution of a listing does not depend on any order** -/
theorem listVal_inv {o : OSI} {v : OrbSystem Ω R A} (hv : v.Antisymmetric) (hac : v.Anticommute) {L : List Slot}
    {bs bs' : List Block} {rs rs' : List Slot} (hb : ∀ b ∈ bs, BlockOK o b) (hn : (bs.flatMap Block.flat ++ rs).Nodup)
    (hL : ∀ y ∈ bs.flatMap Block.flat ++ rs, y ∈ L) (h : SameListing bs bs' rs rs') (x : Slot → Ω) :
    listVal v o L x bs rs = listVal v o L x bs' rs' := by
  obtain ⟨⟨cs, h1, h2⟩, h3⟩ := h
  have hblk : ∀ b ∈ bs, ∀ y ∈ b.flat, y ∈ L := fun b hb' y hy => hL y (List.mem_append_left _ (List.mem_flatMap.2 ⟨b, hb', hy⟩))
  have hnb := (List.nodup_append.1 hn).1
  rw [List.nodup_flatMap] at hnb
  have hreq : ∀ rs : List Slot, ∀ bs : List Block, listVal v o L x bs rs = ((pairProd (fun b b' => crossSg (posZ L) b.flat b'.flat) bs : Int) : R) •
      ((bs.map (fun b => ((crossSg (posZ L) b.flat rs : Int) : R) * (((sgR (posZ L) b.flat : Int) : R) * bval v o L x b))).prod •
        (((sgR (posZ L) rs : Int) : R) • (rs.map (fun y => v.op y.type (x y))).prod)) := by
    intro rs bs
    unfold listVal
    rw [sgR_listing, smul_smul, smul_smul]
    congr 1
    have : (bs.map (fun b => ((crossSg (posZ L) b.flat rs : Int) : R) * (((sgR (posZ L) b.flat : Int) : R) * bval v o L x b))).prod =
        (((bs.map (fun b => sgR (posZ L) b.flat * crossSg (posZ L) b.flat rs)).prod : Int) : R) * (bs.map (bval v o L x)).prod := by
      induction bs with
      | nil => simp
      | cons b bs ih => simp only [List.map_cons, List.prod_cons, ih, Int.cast_mul]; ring
    rw [this]
    push_cast
    ring
  rw [hreq rs bs, hreq rs' bs']
  -- the rest
  have e3 : ((sgR (posZ L) rs : Int) : R) • (rs.map (fun y => v.op y.type (x y))).prod =
      ((sgR (posZ L) rs' : Int) : R) • (rs'.map (fun y => v.op y.type (x y))).prod := by
    have := sgR_smul_perm (r := posZ L) h3 ((List.nodup_append.1 hn).2.1.map_on
      (fun y hy z _ e => posZ_inj (hL y (List.mem_append_right _ hy)) e))
      (fun l => (l.map (fun y => v.op y.type (x y))).prod) (by
        intro pre p q post
        simp only [List.map_append, List.map_cons, List.prod_append, List.prod_cons]
        rw [← mul_assoc (v.op p.type _), hac p.type q.type (x p) (x q)]
        simp [mul_assoc])
    rwa [Int.cast_smul_eq_zsmul, Int.cast_smul_eq_zsmul]
  rw [e3]
  congr 1
  · -- pairs of blocks
    congr 1
    rw [pairProd_perm h1]
    · exact forall₂_pairProd h2 (fun a a' b b' ha hb => crossSg_perm _ ha.flat hb.flat)
    · intro a ha b hb'
      by_cases hab : a = b
      · rw [hab]
      · apply crossSg_symm
        · have := (hb b hb').len
          unfold Block.flat
          rw [List.length_append, this]
          exact ⟨_, rfl⟩
        · intro y hy z hz he
          have hyz := posZ_inj (hblk a ha y hy) he
          subst hyz
          -- a slot in two blocks
          have hd : ∀ l : List Block, l.Pairwise (Function.onFun List.Disjoint Block.flat) → a ∈ l → b ∈ l → False := by
            intro l hl h1 h2
            induction l with
            | nil => cases h1
            | cons c l ih =>
              rw [List.pairwise_cons] at hl
              rcases List.mem_cons.1 h1 with rfl | h1
              · rcases List.mem_cons.1 h2 with rfl | h2
                · exact hab rfl
                · exact hl.1 b h2 hy hz
              · rcases List.mem_cons.1 h2 with rfl | h2
                · exact hl.1 a (by assumption) hz hy
                · exact ih hl.2 h1 h2
          exact hd bs hnb.2 ha hb'
  · congr 1
    rw [(h1.map _).prod_eq]
    refine forall₂_perm_prod h2 ?_
    intro a ha b hab
    have ha := h1.mem_iff.2 ha
    rw [block_inv (hb a ha) hab hv (hblk a ha) (hnb.1 a ha), crossSg_perm _ hab.flat h3]

/-! ### renaming -/

/-- rename the operators of a block -/
def Block.ren (θ : Slot → Slot) (b : Block) : Block := ⟨b.space, b.cre.map θ, b.ann.map θ⟩

theorem flat_ren (θ : Slot → Slot) (b : Block) : (Block.ren θ b).flat = b.flat.map θ := by
  unfold Block.flat Block.ren; simp

theorem flatMap_ren (θ : Slot → Slot) (bs : List Block) (rs : List Slot) :
    (bs.map (Block.ren θ)).flatMap Block.flat ++ rs.map θ = (bs.flatMap Block.flat ++ rs).map θ := by
  rw [List.map_append, List.map_flatMap, List.flatMap_map]
  simp only [flat_ren]

/-- renaming the operators of a listing of `L'` to operators of `L` -/
theorem listVal_ren {o : OSI} (v : OrbSystem Ω R A) {L L' : List Slot} (θ : Slot → Slot)
    {bs : List Block} {rs : List Slot} (hb : ∀ b ∈ bs, BlockOK o b) (hp : (bs.flatMap Block.flat ++ rs).Perm L')
    (hθ : ∀ y ∈ L', θ y ∈ L) (hinj : ∀ y ∈ L', ∀ z ∈ L', θ y = θ z → y = z) (hty : ∀ y ∈ L', (θ y).cre = y.cre)
    (hord : ∀ b ∈ bs, ∀ c a, b.cre = [c] → b.ann = [a] → (posZ L' c < posZ L' a ↔ posZ L (θ c) < posZ L (θ a))) (x : Slot → Ω) :
    listVal v o L x (bs.map (Block.ren θ)) (rs.map θ) =
      ((pairProd (ordDiff (posZ L') (fun y => posZ L (θ y))) L' : Int) : R) • listVal v o L' (fun y => x (θ y)) bs rs := by
  unfold listVal
  rw [flatMap_ren, sgR_map, sgR_change (posZ L') (fun y => posZ L (θ y))]
  have hpp := pairProd_perm (f := ordDiff (posZ L') (fun y => posZ L (θ y))) hp (fun a ha b hb =>
    ordDiff_symm (fun hn he => hn (posZ_inj (hp.mem_iff.1 ha) he))
      (fun hn he => hn (hinj a (hp.mem_iff.1 ha) b (hp.mem_iff.1 hb) (posZ_inj (hθ a (hp.mem_iff.1 ha)) he))))
  rw [hpp, smul_smul]
  have e1 : ((bs.map (Block.ren θ)).map (bval v o L x)).prod = (bs.map (bval v o L' (fun y => x (θ y)))).prod := by
    rw [List.map_map]
    congr 1
    apply List.map_congr_left
    intro b hbm
    have hok := hb b hbm
    obtain ⟨t, ht⟩ := blockOK_type hok
    have hL' : ∀ y ∈ b.flat, y ∈ L' := fun y hy => hp.mem_iff.1 (List.mem_append_left _ (List.mem_flatMap.2 ⟨b, hbm, hy⟩))
    simp only [Function.comp_apply]
    unfold bval Block.ren
    simp only
    rw [ht]
    by_cases h1 : b.cre.length = 1
    · obtain ⟨c, hc⟩ := List.length_eq_one_iff.1 h1
      obtain ⟨a, ha⟩ := List.length_eq_one_iff.1 (hok.len.symm.trans h1)
      have := hord b hbm c a hc ha
      rw [hc, ha]
      cases t with
      | occupied => simp
      | unoccupied => simp
      | general =>
        simp only [List.map_cons, List.map_nil, List.headD_cons, List.length_cons, List.length_nil]
        simp only [this]
    · cases t with
      | occupied => exact absurd (hok.one (by rw [ht]; simp)) h1
      | unoccupied => exact absurd (hok.one (by rw [ht]; simp)) h1
      | general =>
        have := hok.len
        have := hok.pos
        simp only [List.length_map]
        rw [if_neg (by omega), if_neg (by omega)]
        simp only [List.map_map, Function.comp_def]
  have e2 : (rs.map θ).map (fun y => v.op y.type (x y)) = rs.map (fun y => v.op y.type (x (θ y))) := by
    rw [List.map_map]
    apply List.map_congr_left
    intro y hy
    have := hty y (hp.mem_iff.1 (List.mem_append_right _ hy))
    simp only [Function.comp_apply, Slot.type, this]
  rw [e1, e2]
  congr 1
  push_cast
  ring

end
end Wick
end Wicked
