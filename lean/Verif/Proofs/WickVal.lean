import Verif.Spec.WickSum
import Verif.Proofs.SlotOrder
import Verif.Proofs.WickTerm
/-! The value of a listing -/
namespace Wicked
open CppLt CppEq Rational

/-! ### sums over assignments -/
section
variable {ι κ Ω A : Type} [DecidableEq ι] [DecidableEq κ] [Inhabited Ω] [AddCommMonoid A]

theorem sumOver_congr {S : Finset ι} {d : ι → Finset Ω} {F G : (ι → Ω) → A} (h : ∀ x, (∀ i ∈ S, x i ∈ d i) → F x = G x) :
    sumOver S d F = sumOver S d G := by
  unfold sumOver
  apply Finset.sum_congr rfl
  intro σ hσ
  apply h
  intro i hi
  rw [dif_pos hi]
  exact Fintype.mem_piFinset.1 hσ ⟨i, hi⟩

theorem sumOver_add {S : Finset ι} {d : ι → Finset Ω} (F G : (ι → Ω) → A) :
    sumOver S d (fun x => F x + G x) = sumOver S d F + sumOver S d G := Finset.sum_add_distrib

theorem sumOver_zero {S : Finset ι} {d : ι → Finset Ω} : sumOver S d (fun _ => (0 : A)) = 0 := Finset.sum_const_zero

theorem sumOver_sum {τ : Type} {S : Finset ι} {d : ι → Finset Ω} (s : Finset τ) (F : τ → (ι → Ω) → A) :
    sumOver S d (fun x => ∑ t ∈ s, F t x) = ∑ t ∈ s, sumOver S d (F t) := Finset.sum_comm

/-- change of variables along a retraction: summing `F (σ ∘ ρ)` over the assignments of `S'`, where `ρ` maps
`S` onto `S'` with section `j`, is summing `F` over the assignments of `S` that are constant along `j ∘ ρ` -/
theorem sumOver_retract (S : Finset ι) (S' : Finset κ) (d : ι → Finset Ω) (d' : κ → Finset Ω) (ρ : ι → κ) (j : κ → ι)
    (hρ : ∀ i ∈ S, ρ i ∈ S') (hj : ∀ k ∈ S', j k ∈ S) (hjr : ∀ k ∈ S', ρ (j k) = k)
    (hd : ∀ i ∈ S, d i = d' (ρ i)) (F : (ι → Ω) → A)
    (hF : ∀ x y, (∀ i ∈ S, x i = y i) → F x = F y) [∀ x : ι → Ω, Decidable (∀ i ∈ S, x i = x (j (ρ i)))] :
    sumOver S' d' (fun σ => F (fun i => σ (ρ i))) =
      sumOver S d (fun x => if ∀ i ∈ S, x i = x (j (ρ i)) then F x else 0) := by
  unfold sumOver
  rw [← Finset.sum_filter]
  refine Finset.sum_bij' (fun σ _ => fun i => σ ⟨ρ i.1, hρ i.1 i.2⟩) (fun x _ => fun k => x ⟨j k.1, hj k.1 k.2⟩) ?_ ?_ ?_ ?_ ?_
  · intro σ hσ
    rw [Finset.mem_filter, Fintype.mem_piFinset]
    rw [Fintype.mem_piFinset] at hσ
    refine ⟨fun i => by rw [hd i.1 i.2]; exact hσ _, ?_⟩
    intro i hi
    beta_reduce
    rw [dif_pos hi, dif_pos (hj _ (hρ i hi))]
    congr 1
    exact Subtype.ext (hjr _ (hρ i hi)).symm
  · intro x hx
    rw [Finset.mem_filter, Fintype.mem_piFinset] at hx
    rw [Fintype.mem_piFinset]
    intro k
    have := hx.1 ⟨j k.1, hj k.1 k.2⟩
    rwa [hd _ (hj k.1 k.2), hjr k.1 k.2] at this
  · intro σ _
    funext k
    simp only
    congr 1
    exact Subtype.ext (hjr k.1 k.2)
  · intro x hx
    rw [Finset.mem_filter] at hx
    funext i
    have := hx.2 i.1 i.2
    beta_reduce at this
    rw [dif_pos i.2, dif_pos (hj _ (hρ i.1 i.2))] at this
    exact this.symm
  · intro σ _
    apply hF
    intro i hi
    beta_reduce
    rw [dif_pos (hρ i hi), dif_pos hi]

/-- change of variables along a bijection -/
theorem sumOver_bij (S : Finset ι) (S' : Finset κ) (d : ι → Finset Ω) (d' : κ → Finset Ω) (ρ : ι → κ)
    (hρ : ∀ i ∈ S, ρ i ∈ S') (hinj : ∀ i ∈ S, ∀ k ∈ S, ρ i = ρ k → i = k) (hsur : ∀ k ∈ S', ∃ i ∈ S, ρ i = k)
    (hd : ∀ i ∈ S, d i = d' (ρ i)) (F : (ι → Ω) → A)
    (hF : ∀ x y, (∀ i ∈ S, x i = y i) → F x = F y) :
    sumOver S' d' (fun σ => F (fun i => σ (ρ i))) = sumOver S d F := by
  classical
  rcases S'.eq_empty_or_nonempty with rfl | ⟨k0, hk0⟩
  · have hS : S = ∅ := by
      rw [Finset.eq_empty_iff_forall_notMem]; intro i hi; exact absurd (hρ i hi) (Finset.notMem_empty _)
    subst hS
    unfold sumOver
    simp only [Finset.notMem_empty, dif_neg, not_false_eq_true]
    simp
  obtain ⟨i0, hi0, _⟩ := hsur k0 hk0
  let j : κ → ι := fun k => if h : ∃ i ∈ S, ρ i = k then h.choose else i0
  have hj : ∀ k ∈ S', j k ∈ S ∧ ρ (j k) = k := by
    intro k hk
    have h := hsur k hk
    simp only [j, dif_pos h]
    exact h.choose_spec
  rw [sumOver_retract S S' d d' ρ j hρ (fun k hk => (hj k hk).1) (fun k hk => (hj k hk).2) hd F hF]
  apply sumOver_congr
  intro x _
  rw [if_pos]
  intro i hi
  exact congrArg x (hinj i hi _ (hj _ (hρ i hi)).1 (hj _ (hρ i hi)).2.symm)

end

theorem value_sumOver {Ω R A : Type} [Inhabited Ω] [CommRing R] [Ring A] [Algebra R A] (v : OrbSystem Ω R A) (t : STerm) :
    v.value t = sumOver t.allIdx.toFinset (fun i => v.dom i.space) (fun σ => v.inst σ t) := rfl

namespace Wick
section
variable {Ω R A : Type} [Inhabited Ω] [DecidableEq Ω] [CommRing R] [Ring A] [Algebra R A]

/-- the value of a block with the creation operators written first -/
def bval (v : OrbSystem Ω R A) (o : OSI) (L : List Slot) (x : Slot → Ω) (b : Block) : R :=
  match o.spaceType b.space with
  | .ok .occupied => if x (b.ann.headD ⟨0, 0, false, 0⟩) = x (b.cre.headD ⟨0, 0, false, 0⟩) then 1 else 0
  | .ok .unoccupied => -(if x (b.cre.headD ⟨0, 0, false, 0⟩) = x (b.ann.headD ⟨0, 0, false, 0⟩) then 1 else 0)
  | _ =>
    if b.cre.length + b.ann.length = 2 then
      (if posZ L (b.cre.headD ⟨0, 0, false, 0⟩) < posZ L (b.ann.headD ⟨0, 0, false, 0⟩) then
        v.T "gamma1".toList ((b.ann.map x).reverse) (b.cre.map x)
       else - v.T "eta1".toList ((b.ann.map x).reverse) (b.cre.map x))
     else v.T ("lambda".toList ++ intStr (b.cre.length : Int)) ((b.ann.map x).reverse) (b.cre.map x)

/-- the contribution of a listing -/
def listVal (v : OrbSystem Ω R A) (o : OSI) (L : List Slot) (x : Slot → Ω) (bs : List Block) (rs : List Slot) : A :=
  (((sgR (posZ L) (bs.flatMap Block.flat ++ rs) : Int) : R) * (bs.map (bval v o L x)).prod) •
    (rs.map (fun y => v.op y.type (x y))).prod

/-- the layout of the tensors -/
theorem layTensors_prod (v : OrbSystem Ω R A) (ns : Nat) (I : Slot → Index) (τ : Index → Ω) (ops : OperatorProduct) :
    ((layTensors ns I 0 ops).map (fun t => v.T t.label (t.lower.map τ) (t.upper.map τ))).prod =
      opElements v ns ops (fun y => τ (I y)) := by
  unfold opElements
  have key : ∀ (ops : OperatorProduct) (k : Nat), (layTensors ns I k ops).map (fun t => v.T t.label (t.lower.map τ) (t.upper.map τ)) =
      (List.range ops.length).map (fun A => v.T (opAt ops A).label ((creSlots ns (k + A) (opAt ops A)).map (fun y => τ (I y)))
        ((annSlots ns (k + A) (opAt ops A)).map (fun y => τ (I y)))) := by
    intro ops
    induction ops with
    | nil => intro k; rfl
    | cons p ops ih =>
      intro k
      rw [layTensors, List.map_cons, ih, List.length_cons, List.range_succ_eq_map, List.map_cons, List.map_map]
      congr 1
      · simp [opAt, Function.comp_def]
      · rw [List.map_map]
        apply List.map_congr_left
        intro A _
        simp [opAt, Function.comp_def, Nat.add_assoc, Nat.add_comm 1]
  rw [key ops 0]
  simp

/-- the tensor of a block -/
def bten (v : OrbSystem Ω R A) (o : OSI) (L : List Slot) (x : Slot → Ω) (b : Block) : R :=
  match o.spaceType b.space with
  | .ok .general =>
    if b.cre.length + b.ann.length = 2 then
      (if posZ L (b.cre.headD ⟨0, 0, false, 0⟩) < posZ L (b.ann.headD ⟨0, 0, false, 0⟩) then
        v.T "gamma1".toList ((b.ann.map x).reverse) (b.cre.map x)
       else v.T "eta1".toList ((b.ann.map x).reverse) (b.cre.map x))
     else v.T ("lambda".toList ++ intStr (b.cre.length : Int)) ((b.ann.map x).reverse) (b.cre.map x)
  | _ => 1

theorem bten_eq (v : OrbSystem Ω R A) (o : OSI) (L : List Slot) (I : Slot → Index) (τ : Index → Ω) (b : Block) :
    ((bTensors o L I b).map (fun t => v.T t.label (t.lower.map τ) (t.upper.map τ))).prod = bten v o L (fun y => τ (I y)) b := by
  unfold bTensors bten
  split
  · rename_i hg
    rw [hg]
    simp only [List.map_cons, List.map_nil, List.prod_cons, List.prod_nil, mul_one]
    split
    · split <;> simp only [List.map_reverse, List.map_map, Function.comp_def]
    · simp only [List.map_reverse, List.map_map, Function.comp_def]
  · simp

/-- the delta functions, tensor and sign of one block -/
theorem bval_eq {o : OSI} {b : Block} (hb : BlockOK o b) (v : OrbSystem Ω R A) (L : List Slot) (x : Slot → Ω) :
    bval v o L x b = ((bSign o L b : Int) : R) * (((bPairs o b).map (fun p => if x p.1 = x p.2 then (1 : R) else 0)).prod *
      bten v o L x b) := by
  obtain ⟨t, ht⟩ := blockOK_type hb
  unfold bval bSign bPairs bten
  rw [ht]
  cases t with
  | occupied => simp
  | unoccupied => simp only [List.map_cons, List.map_nil, List.prod_cons, List.prod_nil, mul_one, Int.cast_neg, Int.cast_one, neg_mul, one_mul]
  | general =>
    simp only [List.map_nil, List.prod_nil, one_mul]
    split
    · rename_i h2
      split
      · rename_i h3
        rw [if_neg (by rintro ⟨_, h⟩; exact h h3)]
        simp
      · rename_i h3
        rw [if_pos ⟨h2, h3⟩]
        simp
    · rename_i h2
      rw [if_neg (fun h => h2 h.1)]
      simp

theorem prod_ite_all {α : Type _} (l : List α) (P : α → Prop) [DecidablePred P] :
    (l.map (fun a => if P a then (1 : R) else 0)).prod = if ∀ a ∈ l, P a then 1 else 0 := by
  induction l with
  | nil => simp
  | cons a l ih =>
    rw [List.map_cons, List.prod_cons, ih]
    simp only [List.forall_mem_cons]
    by_cases h1 : P a <;> by_cases h2 : ∀ b ∈ l, P b <;> simp [h1, h2]

/-- opElements only looks at the operators of the product -/
theorem opElements_congr (v : OrbSystem Ω R A) (ns : Nat) (ops : OperatorProduct) {x y : Slot → Ω}
    (h : ∀ z ∈ slots ns ops, x z = y z) : opElements v ns ops x = opElements v ns ops y := by
  unfold opElements
  congr 1
  apply List.map_congr_left
  intro k hk
  have hk := List.mem_range.1 hk
  congr 1 <;> (apply List.map_congr_left; intro z hz; apply h; rw [mem_slots])
  · have := mem_creSlots.1 hz
    rw [this.1, this.2.2.1]; exact ⟨hk, this.2.1, this.2.2.2⟩
  · have := mem_annSlots.1 hz
    rw [this.1, this.2.2.1]; exact ⟨hk, this.2.1, this.2.2.2⟩

theorem bten_congr (v : OrbSystem Ω R A) (o : OSI) (L : List Slot) {x y : Slot → Ω} {b : Block} (h : ∀ z ∈ b.flat, x z = y z) :
    bten v o L x b = bten v o L y b := by
  have hc : b.cre.map x = b.cre.map y := List.map_congr_left (fun z hz => h z (List.mem_append_left _ hz))
  have ha : b.ann.map x = b.ann.map y := List.map_congr_left (fun z hz => h z (List.mem_append_right _ hz))
  unfold bten
  rw [hc, ha]

section
variable {o : OSI} {ops : OperatorProduct} {bs : List Block} {rs : List Slot} (h : IsListing o ops bs rs)
include h

theorem ren_surv {z : Slot} (hz : z ∈ bs.flatMap (bSurv o) ++ rs) : ren (bs.flatMap (bPairs o)) z = z := by
  rcases List.mem_append.1 hz with hz | hz
  · obtain ⟨b, hb, hz⟩ := List.mem_flatMap.1 hz
    have hok := h.blocks b hb
    have hfl : z ∈ b.flat := by
      unfold bSurv at hz; unfold Block.flat
      split at hz
      · exact List.mem_append_left _ hz
      · exact List.mem_append_right _ hz
      · exact hz
    rw [ren_block h hb hfl]
    apply ren_of_not
    intro hm
    obtain ⟨t, ht⟩ := blockOK_type hok
    unfold bSurv at hz
    unfold bPairs at hm
    rw [ht] at hz hm
    have hcre := hok.cre
    have hann := hok.ann
    cases t with
    | general => simp at hm
    | occupied =>
      obtain ⟨c, a, hc, ha⟩ := block_one hok (by rw [ht]; simp)
      rw [hc] at hz hcre; rw [ha] at hm hann
      simp only [List.mem_singleton, List.headD_cons, List.map_cons, List.map_nil] at hz hm
      subst hz
      have h1 := (hcre z (by simp)).1
      have h2 := (hann a (by simp)).1
      rw [hm, h2] at h1; cases h1
    | unoccupied =>
      obtain ⟨c, a, hc, ha⟩ := block_one hok (by rw [ht]; simp)
      rw [ha] at hz hann; rw [hc] at hm hcre
      simp only [List.mem_singleton, List.headD_cons, List.map_cons, List.map_nil] at hz hm
      subst hz
      have h1 := (hann z (by simp)).1
      have h2 := (hcre c (by simp)).1
      rw [hm, h2] at h1; cases h1
  · exact ren_rest h hz

theorem ren_mem_surv {z : Slot} (hz : z ∈ slots o.spaces.length ops) : ren (bs.flatMap (bPairs o)) z ∈ bs.flatMap (bSurv o) ++ rs := by
  rcases List.mem_append.1 (h.perm.mem_iff.2 hz) with hz | hz
  · obtain ⟨b, hb, hz⟩ := List.mem_flatMap.1 hz
    refine List.mem_append_left _ (List.mem_flatMap.2 ⟨b, hb, ?_⟩)
    rcases List.mem_append.1 hz with hz | hz
    · exact (block_low h hb).mem_iff.1 (List.mem_map_of_mem (List.mem_append_left _ hz))
    · exact (block_upp h hb).mem_iff.1 (List.mem_map_of_mem (List.mem_append_left _ hz))
  · rw [ren_rest h hz]; exact List.mem_append_right _ hz

theorem listTerm_mem_idx (i : Index) : i ∈ (listTerm o ops bs rs).allIdx ↔
    i ∈ (bs.flatMap (bSurv o) ++ rs).map (slotIdx (slots o.spaces.length ops)) := by
  rw [(allIdx_perm _).mem_iff, List.mem_append, (listTerm_low h).mem_iff, (listTerm_upp h).mem_iff, or_self]

theorem ren_space {z : Slot} (hz : z ∈ slots o.spaces.length ops) : (ren (bs.flatMap (bPairs o)) z).space = z.space := by
  rcases List.mem_append.1 (h.perm.mem_iff.2 hz) with hz | hz
  · obtain ⟨b, hb, hz⟩ := List.mem_flatMap.1 hz
    have hok := h.blocks b hb
    have hsp : ∀ y ∈ b.flat, y.space = b.space := by
      intro y hy
      rcases List.mem_append.1 hy with hy | hy
      · exact (hok.cre y hy).2
      · exact (hok.ann y hy).2
    rw [ren_block h hb hz, hsp z hz]
    by_cases hm : z ∈ (bPairs o b).map Prod.fst
    · obtain ⟨t, ht⟩ := blockOK_type hok
      unfold bPairs at hm ⊢
      rw [ht] at hm ⊢
      cases t with
      | general => simp at hm
      | occupied =>
        obtain ⟨c, a, hc, ha⟩ := block_one hok (by rw [ht]; simp)
        rw [hc, ha] at hm ⊢
        simp only [List.headD_cons, List.map_cons, List.map_nil, List.mem_singleton] at hm ⊢
        simp only [ren, if_pos hm]
        exact hsp c (by simp [Block.flat, hc])
      | unoccupied =>
        obtain ⟨c, a, hc, ha⟩ := block_one hok (by rw [ht]; simp)
        rw [hc, ha] at hm ⊢
        simp only [List.headD_cons, List.map_cons, List.map_nil, List.mem_singleton] at hm ⊢
        simp only [ren, if_pos hm]
        exact hsp a (by simp [Block.flat, ha])
    · rw [ren_of_not hm]; exact hsp z hz
  · rw [ren_rest h hz]

/-- **the value of the term that the code writes for a listing** -/
theorem listTerm_value (v : OrbSystem Ω R A) :
    ((listSign o ops bs rs : Int) : R) • v.value (listTerm o ops bs rs) =
      sumOver (slots o.spaces.length ops).toFinset (fun y => v.dom y.space) (fun x =>
        opElements v o.spaces.length ops x • listVal v o (slots o.spaces.length ops) x bs rs) := by
  classical
  have hL := nodup_slots o.spaces.length ops
  let L := slots o.spaces.length ops
  let I := slotIdx L
  let ps := bs.flatMap (bPairs o)
  let F : (Slot → Ω) → A := fun x => (opElements v o.spaces.length ops x * (bs.map (bten v o L x)).prod) •
    (rs.map (fun y => v.op y.type (x y))).prod
  have hF : ∀ x y : Slot → Ω, (∀ i ∈ L.toFinset, x i = y i) → F x = F y := by
    intro x y hxy
    have hxy' : ∀ z ∈ L, x z = y z := fun z hz => hxy z (List.mem_toFinset.2 hz)
    show (_ * _) • _ = (_ * _) • _
    rw [opElements_congr v _ _ hxy']
    congr 2
    · congr 1
      apply List.map_congr_left
      intro b hb
      exact bten_congr v o L (fun z hz => hxy' z (mem_slots_block h hb hz))
    · apply List.map_congr_left
      intro z hz
      rw [hxy' z (mem_slots_rest h hz)]
  have hA : ∀ z ∈ L, applyMap (pairMap L ps) (I z) = I (ren ps z) := fun z hz => applyMap_pairMap hL (pairs_nodup h) (pairs_mem h) hz
  have hinst : ∀ σ : Index → Ω, v.inst σ (listTerm o ops bs rs) = F (fun z => σ (applyMap (pairMap L ps) (I z))) := by
    intro σ
    have h1 : listTerm o ops bs rs = STerm.subst (applyMap (pairMap L ps)) ⟨false, rs.map (fun x => ⟨x.type, I x⟩),
        layTensors o.spaces.length I 0 ops ++ bs.flatMap (bTensors o L I)⟩ := rfl
    rw [h1, inst_subst]
    unfold OrbSystem.inst
    simp only [F, List.map_append, List.prod_append, layTensors_prod v o.spaces.length I (fun i => σ (applyMap (pairMap L ps) i)) ops]
    congr 2
    · rw [List.map_flatMap, List.flatMap_def, List.prod_flatten, List.map_map]
      congr 1
      apply List.map_congr_left
      intro b _
      exact bten_eq v o L I (fun i => σ (applyMap (pairMap L ps) i)) b
    · rw [List.map_map]; rfl
  -- the section
  let j : Index → Slot := fun i => if hi : ∃ z ∈ bs.flatMap (bSurv o) ++ rs, I z = i then hi.choose else ⟨0, 0, false, 0⟩
  have hsub : ∀ z ∈ bs.flatMap (bSurv o) ++ rs, z ∈ L := fun z hz => h.perm.mem_iff.1 ((surv_sub h).subset hz)
  have hj : ∀ z ∈ bs.flatMap (bSurv o) ++ rs, j (I z) = z := by
    intro z hz
    have hi : ∃ w ∈ bs.flatMap (bSurv o) ++ rs, I w = I z := ⟨z, hz, rfl⟩
    simp only [j, dif_pos hi]
    exact slotIdx_inj hL (hsub _ hi.choose_spec.1) (hsub z hz) hi.choose_spec.2
  have hJ : ∀ i ∈ (listTerm o ops bs rs).allIdx.toFinset, ∃ z ∈ bs.flatMap (bSurv o) ++ rs, I z = i := by
    intro i hi
    rw [List.mem_toFinset, listTerm_mem_idx h] at hi
    exact List.mem_map.1 hi
  have hret := sumOver_retract L.toFinset (listTerm o ops bs rs).allIdx.toFinset (fun y : Slot => v.dom y.space) (fun i : Index => v.dom i.space)
    (fun z => applyMap (pairMap L ps) (I z)) j
    (by
      intro z hz
      rw [List.mem_toFinset] at hz
      rw [List.mem_toFinset, listTerm_mem_idx h]
      show applyMap (pairMap L ps) (I z) ∈ _
      rw [hA z hz]
      exact List.mem_map_of_mem (ren_mem_surv h hz))
    (by
      intro i hi
      obtain ⟨z, hz, rfl⟩ := hJ i hi
      rw [hj z hz, List.mem_toFinset]
      exact hsub z hz)
    (by
      intro i hi
      obtain ⟨z, hz, rfl⟩ := hJ i hi
      rw [hj z hz, hA z (hsub z hz), ren_surv h hz])
    (by
      intro z hz
      rw [List.mem_toFinset] at hz
      have h1 := slotIdx_space hL (hsub _ (ren_mem_surv h hz))
      show v.dom z.space = v.dom (applyMap (pairMap L ps) (I z)).space
      rw [hA z hz]
      show _ = v.dom (slotIdx (slots o.spaces.length ops) _).space
      rw [h1, ren_space h hz])
    F hF
  rw [value_sumOver]
  have e1 : (fun σ : Index → Ω => v.inst σ (listTerm o ops bs rs)) = fun σ => F (fun z => σ (applyMap (pairMap L ps) (I z))) := funext hinst
  rw [e1, hret]
  unfold sumOver
  rw [Finset.smul_sum]
  apply Finset.sum_congr rfl
  intro σ _
  generalize (fun i => if h : i ∈ L.toFinset then σ ⟨i, h⟩ else default) = x
  have hcond : (∀ i ∈ L.toFinset, x i = x (j (applyMap (pairMap L ps) (I i)))) ↔ ∀ p ∈ ps, x p.1 = x p.2 := by
    have hjr : ∀ z ∈ L, j (applyMap (pairMap L ps) (I z)) = ren ps z := by
      intro z hz; rw [hA z hz, hj _ (ren_mem_surv h hz)]
    constructor
    · intro hh p hp
      have h1 := pairs_mem h p hp
      have h2 := hh p.1 (List.mem_toFinset.2 h1)
      rwa [hjr _ h1, ren_of_mem (pairs_nodup h) hp] at h2
    · intro hh z hz
      rw [List.mem_toFinset] at hz
      rw [hjr z hz]
      by_cases hm : z ∈ ps.map Prod.fst
      · obtain ⟨p, hp, rfl⟩ := List.mem_map.1 hm
        rw [ren_of_mem (pairs_nodup h) hp]; exact hh p hp
      · rw [ren_of_not hm]
  have hbv : (bs.map (bval v o L x)).prod = (((bs.map (bSign o L)).prod : Int) : R) *
      ((ps.map (fun p => if x p.1 = x p.2 then (1 : R) else 0)).prod * (bs.map (bten v o L x)).prod) := by
    have hb := h.blocks
    simp only [ps]
    clear hcond hret hJ hj hsub hinst hA hF e1
    clear h
    generalize bs = cs at hb ⊢
    induction cs with
    | nil => simp
    | cons b cs ih =>
      simp only [List.map_cons, List.prod_cons, List.flatMap_cons, List.map_append, List.prod_append, Int.cast_mul]
      rw [ih (fun b' hb' => hb b' (by simp [hb'])), bval_eq (hb b (by simp))]
      ring
  have hsg : (listSign o ops bs rs : Int) = (bs.map (bSign o L)).prod * sgR (posZ L) (bs.flatMap Block.flat ++ rs) := by
    unfold listSign; rw [sign_inverse hL h.perm]
  unfold listVal
  beta_reduce
  have hbv' : (bs.map (bval v o (slots o.spaces.length ops) x)).prod = _ := hbv
  rw [hbv', hsg, prod_ite_all, smul_smul]
  by_cases hc : ∀ p ∈ ps, x p.1 = x p.2
  · rw [if_pos (hcond.2 hc), if_pos hc, smul_smul]
    congr 1
    push_cast
    ring
  · rw [if_neg (fun hh => hc (hcond.1 hh)), if_neg hc]
    simp

end
end
end Wick
end Wicked
