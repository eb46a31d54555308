import Verif.Proofs.WickInv
import Verif.Proofs.WickTerm
/-! Two listings with the same numbers of legs, of a product or of a rearrangement of it, have the same value
up to the sign of the exchanges of operators -/
namespace Wicked
open CppLt CppEq Rational
namespace Wick

theorem slotsFrom_eq (ns : Nat) : ∀ (ops : OperatorProduct) (k : Nat),
    slotsFrom ns k ops = (List.range ops.length).flatMap (fun i => opSlots ns (k + i) (opAt ops i)) := by
  intro ops
  induction ops with
  | nil => intro k; rfl
  | cons p ops ih =>
    intro k
    rw [slotsFrom, ih, List.length_cons, List.range_succ_eq_map, List.flatMap_cons, List.flatMap_map]
    congr 1
    apply List.flatMap_congr
    intro i _
    have : k + 1 + i = k + (i + 1) := by omega
    rw [this]
    rfl

theorem slots_eq (ns : Nat) (ops : OperatorProduct) :
    slots ns ops = (List.range ops.length).flatMap (fun i => opSlots ns i (opAt ops i)) := by
  unfold slots
  rw [slotsFrom_eq]
  simp

/-- the kind of an operator after the rearrangement -/
def pcls (p : List Int) (k : Nat × Nat × Bool) : Nat × Nat × Bool := (pAt p k.1, k.2.1, k.2.2)

theorem opSlots_cls (ns k k' : Nat) (p : Operator) :
    (opSlots ns k p).map (fun y => (k', y.cls.2)) = (opSlots ns k' p).map Slot.cls := by
  unfold opSlots creSlots annSlots
  simp only [List.map_append, List.map_flatMap, List.map_map, List.map_reverse, Function.comp_def, Slot.cls]

theorem perm_range_flatMap {n : Nat} {p : List Int} (hp : IsPermOf n p) {β : Type _} (f : Nat → List β) :
    ((List.range n).flatMap (fun k => f (pAt p k))).Perm ((List.range n).flatMap f) := by
  have := (perm_pAt hp f).flatten
  simpa [List.flatMap] using this

theorem slots_cls {ns : Nat} {ops : OperatorProduct} {p c : List Int} (hp : IsPermOf ops.length p) :
    ((slots ns (graphOps ops (p, c))).map (fun y => pcls p y.cls)).Perm ((slots ns ops).map Slot.cls) := by
  rw [slots_eq, slots_eq, length_graphOps hp, List.map_flatMap, List.map_flatMap]
  refine List.Perm.trans (List.Perm.of_eq ?_) (perm_range_flatMap hp (fun i => (opSlots ns i (opAt ops i)).map Slot.cls))
  apply List.flatMap_congr
  intro k hk
  rw [opAt_graphOps hp (List.mem_range.1 hk), ← opSlots_cls ns k]
  apply List.map_congr_left
  intro y hy
  have : y.op = k := (mem_opSlots.1 hy).1
  simp only [pcls, Slot.cls, this]

/-- product over pairs of a concatenation -/
theorem pairProd_flatMap {α β M : Type _} [CommMonoid M] (f : β → β → M) (g : α → List β) (l : List α) :
    pairProd f (l.flatMap g) = (l.map (fun a => pairProd f (g a))).prod *
      pairProd (fun a b => ((g a).map (fun y => ((g b).map (f y)).prod)).prod) l := by
  induction l with
  | nil => simp [pairProd]
  | cons a l ih =>
    have h1 : ∀ (l : List α), ((g a).map (fun y => ((l.flatMap g).map (f y)).prod)).prod =
        (l.map (fun b => ((g a).map (fun y => ((g b).map (f y)).prod)).prod)).prod := by
      intro l
      induction l with
      | nil => simp
      | cons b l ih2 =>
        simp only [List.flatMap_cons, List.map_append, List.prod_append, List.map_cons, List.prod_cons]
        rw [List.prod_map_mul, ih2]
    rw [List.flatMap_cons, pairProd_append, ih, h1, List.map_cons, List.prod_cons, pairProd]
    simp only [mul_assoc, mul_comm, mul_left_comm]

theorem prod_const_list {α M : Type _} [CommMonoid M] (l : List α) (f : α → M) (c : M) (h : ∀ a ∈ l, f a = c) :
    (l.map f).prod = c ^ l.length := by
  induction l with
  | nil => simp
  | cons a l ih =>
    rw [List.map_cons, List.prod_cons, h a (by simp), ih (fun b hb => h b (by simp [hb])), List.length_cons, pow_succ']

theorem exchangeSign_pairProd (n : Int → Int) (l : List Int) :
    exchangeSign n l = pairProd (fun a b => if b < a then (-1) ^ (n a * n b).toNat else 1) l := by
  induction l with
  | nil => rfl
  | cons a l ih => rw [exchangeSign, pairProd, ih]

theorem length_opSlots_numOps {ns : Nat} (h8 : ns ≤ 8) {p : Operator} (hp : p.Valid ns) (o : Nat) : ((opSlots ns o p).length : Int) = p.numOps := by
  rw [length_opSlots hp, Operator.numOps, numOps_range h8 _ (fun t ht => (hp t).2.2 ht)]

theorem opAt_valid {ns : Nat} {ops : OperatorProduct} (hv : ∀ p ∈ ops, p.Valid ns) {i : Nat} (hi : i < ops.length) : (opAt ops i).Valid ns := by
  have : opAt ops i = ops[i] := by simp [opAt, hi]
  rw [this]
  exact hv _ (List.getElem_mem hi)

/-- a renaming of the operators of a rearranged product that respects the kinds -/
structure Renaming (ns : Nat) (ops : OperatorProduct) (p c : List Int) (θ : Slot → Slot) : Prop where
  perm : ((slots ns (graphOps ops (p, c))).map θ).Perm (slots ns ops)
  cls : ∀ y ∈ slots ns (graphOps ops (p, c)), (θ y).cls = pcls p y.cls

section
variable {ns : Nat} {ops : OperatorProduct} {p c : List Int} {θ : Slot → Slot}

theorem Renaming.mem (h : Renaming ns ops p c θ) {y : Slot} (hy : y ∈ slots ns (graphOps ops (p, c))) : θ y ∈ slots ns ops :=
  h.perm.mem_iff.1 (List.mem_map_of_mem hy)

theorem Renaming.inj (h : Renaming ns ops p c θ) : ∀ y ∈ slots ns (graphOps ops (p, c)), ∀ z ∈ slots ns (graphOps ops (p, c)), θ y = θ z → y = z := by
  intro y hy z hz e
  exact List.inj_on_of_nodup_map (h.perm.nodup_iff.2 (nodup_slots _ _)) hy hz e

theorem Renaming.surj (h : Renaming ns ops p c θ) {z : Slot} (hz : z ∈ slots ns ops) : ∃ y ∈ slots ns (graphOps ops (p, c)), θ y = z := by
  have := h.perm.mem_iff.2 hz
  obtain ⟨y, hy, e⟩ := List.mem_map.1 this
  exact ⟨y, hy, e⟩

theorem cls_eq {x : Slot} {k : Nat × Nat × Bool} (h : x.cls = k) : x.op = k.1 ∧ x.space = k.2.1 ∧ x.cre = k.2.2 := by
  subst h; exact ⟨rfl, rfl, rfl⟩

theorem Renaming.op (h : Renaming ns ops p c θ) {y : Slot} (hy : y ∈ slots ns (graphOps ops (p, c))) :
    (θ y).op = pAt p y.op ∧ (θ y).space = y.space ∧ (θ y).cre = y.cre := cls_eq (h.cls y hy)

/-- two operators of one factor, of different kinds: same order after renaming -/
theorem bef_within {x y x' y' : Slot} {a b : Nat} (hx : x.op = a) (hy : y.op = a) (hx' : x'.op = b) (hy' : y'.op = b)
    (h1 : x'.space = x.space) (h2 : y'.space = y.space) (h3 : x'.cre = x.cre) (h4 : y'.cre = y.cre)
    (hne : x.space ≠ y.space ∨ x.cre ≠ y.cre) : Slot.Bef x y ↔ Slot.Bef x' y' := by
  unfold Slot.Bef
  rw [hx, hy, hx', hy', h1, h2, h3, h4]
  have e : ∀ t : Nat, (t < t) = False := fun t => by simp
  simp only [e, false_or, true_and]
  cases hxc : x.cre <;> cases hyc : y.cre <;> simp [hxc, hyc] at hne ⊢ <;> omega

theorem creSlots_sub {k : Nat} (hk : k < ops.length) : ∀ y ∈ creSlots ns k (opAt ops k), y ∈ slots ns ops := by
  intro y hy
  rw [slots_eq]
  exact List.mem_flatMap.2 ⟨k, List.mem_range.2 hk, List.mem_append_left _ hy⟩

theorem annSlots_sub {k : Nat} (hk : k < ops.length) : ∀ y ∈ annSlots ns k (opAt ops k), y ∈ slots ns ops := by
  intro y hy
  rw [slots_eq]
  exact List.mem_flatMap.2 ⟨k, List.mem_range.2 hk, List.mem_append_right _ (List.mem_reverse.2 hy)⟩

theorem opSlots_sub {k : Nat} (hk : k < ops.length) : ∀ y ∈ opSlots ns k (opAt ops k), y ∈ slots ns ops := by
  intro y hy
  rw [slots_eq]
  exact List.mem_flatMap.2 ⟨k, List.mem_range.2 hk, hy⟩

theorem posZ_nodup {L l : List Slot} (hl : l.Nodup) (h : ∀ y ∈ l, y ∈ L) : (l.map (posZ L)).Nodup :=
  hl.map_on (fun y hy _ _ e => posZ_inj (h y hy) e)

theorem sorted_of_bef {l : List Slot} (h : l.Pairwise Slot.Bef) (hs : ∀ y ∈ l, y ∈ slots ns ops) :
    sgR (posZ (slots ns ops)) l = 1 := by
  apply sgR_sorted
  refine List.Pairwise.imp_of_mem ?_ h
  intro a b ha hb hab
  exact le_of_lt ((posZ_bef (hs a ha) (hs b hb)).2 hab)

theorem cre_bef (ns k : Nat) (q : Operator) : (creSlots ns k q).Pairwise Slot.Bef :=
  (List.pairwise_append.1 (opSlots_bef ns k q)).1
theorem ann_bef (ns k : Nat) (q : Operator) : (annSlots ns k q).reverse.Pairwise Slot.Bef :=
  (List.pairwise_append.1 (opSlots_bef ns k q)).2.1

theorem ren_perm_of {l m : List Slot} {θ : Slot → Slot} (hl : l.Nodup) (hm : ∀ y ∈ l, θ y ∈ m) (hinj : ∀ y ∈ l, ∀ z ∈ l, θ y = θ z → y = z)
    (hlen : l.length = m.length) : (l.map θ).Perm m := by
  have hn : (l.map θ).Nodup := hl.map_on (fun y hy z hz e => hinj y hy z hz e)
  refine (hn.subperm ?_).perm_of_length_le ?_
  · intro z hz
    obtain ⟨y, hy, rfl⟩ := List.mem_map.1 hz
    exact hm y hy
  · rw [List.length_map]; omega

theorem length_creSlots (ns k k' : Nat) (q : Operator) : (creSlots ns k q).length = (creSlots ns k' q).length := by
  unfold creSlots; simp [List.length_flatMap]
theorem length_annSlots (ns k k' : Nat) (q : Operator) : (annSlots ns k q).length = (annSlots ns k' q).length := by
  unfold annSlots; simp [List.length_flatMap]

theorem Renaming.creSlots (h : Renaming ns ops p c θ) (hp : IsPermOf ops.length p) {k : Nat} (hk : k < ops.length) :
    ((creSlots ns k (opAt ops (pAt p k))).map θ).Perm (Wicked.creSlots ns (pAt p k) (opAt ops (pAt p k))) := by
  have hsub := creSlots_sub (ns := ns) (ops := graphOps ops (p, c)) (k := k) (by rw [length_graphOps hp]; exact hk)
  rw [opAt_graphOps hp hk] at hsub
  refine ren_perm_of (List.nodup_append.1 (nodup_opSlots ns k _)).1 ?_ (fun y hy z hz => h.inj y (hsub y hy) z (hsub z hz)) (length_creSlots _ _ _ _)
  intro y hy
  have h1 := h.op (hsub y hy)
  have h2 := mem_creSlots.1 hy
  have h3 := mem_slots.1 (h.mem (hsub y hy))
  rw [mem_creSlots, h1.1, h1.2.1, h1.2.2, h2.1]
  rw [h1.1, h1.2.1, h1.2.2, h2.1, h2.2.2.1, if_pos rfl] at h3
  exact ⟨rfl, h2.2.1, h2.2.2.1, h3.2.2⟩

theorem Renaming.annSlots (h : Renaming ns ops p c θ) (hp : IsPermOf ops.length p) {k : Nat} (hk : k < ops.length) :
    (((annSlots ns k (opAt ops (pAt p k))).reverse).map θ).Perm ((Wicked.annSlots ns (pAt p k) (opAt ops (pAt p k))).reverse) := by
  have hsub := annSlots_sub (ns := ns) (ops := graphOps ops (p, c)) (k := k) (by rw [length_graphOps hp]; exact hk)
  rw [opAt_graphOps hp hk] at hsub
  refine ren_perm_of (List.nodup_append.1 (nodup_opSlots ns k _)).2.1 ?_ (fun y hy z hz => h.inj y (hsub y (List.mem_reverse.1 hy)) z (hsub z (List.mem_reverse.1 hz)))
    (by rw [List.length_reverse, List.length_reverse]; exact length_annSlots _ _ _ _)
  intro y hy
  rw [List.mem_reverse] at hy ⊢
  have h1 := h.op (hsub y hy)
  have h2 := mem_annSlots.1 hy
  have h3 := mem_slots.1 (h.mem (hsub y hy))
  rw [mem_annSlots, h1.1, h1.2.1, h1.2.2, h2.1]
  rw [h1.1, h1.2.1, h1.2.2, h2.1, h2.2.2.1] at h3
  exact ⟨rfl, h2.2.1, h2.2.2.1, by simpa using h3.2.2⟩

/-- sign of a renaming -/
abbrev renSign (ns : Nat) (ops : OperatorProduct) (p c : List Int) (θ : Slot → Slot) (l : List Slot) : Int :=
  pairProd (ordDiff (posZ (slots ns (graphOps ops (p, c)))) (fun y => posZ (slots ns ops) (θ y))) l

/-- sign within one factor -/
theorem Renaming.within (h : Renaming ns ops p c θ) (hp : IsPermOf ops.length p) {k : Nat} (hk : k < ops.length) :
    renSign ns ops p c θ (opSlots ns k (opAt ops (pAt p k))) =
      sgR (posZ (slots ns ops)) ((Wicked.creSlots ns k (opAt ops (pAt p k))).map θ) *
      sgR (posZ (slots ns ops)) (((Wicked.annSlots ns k (opAt ops (pAt p k))).reverse).map θ) := by
  have hsub := opSlots_sub (ns := ns) (ops := graphOps ops (p, c)) (k := k) (by rw [length_graphOps hp]; exact hk)
  rw [opAt_graphOps hp hk] at hsub
  have key : ∀ l : List Slot, l.Pairwise Slot.Bef → (∀ y ∈ l, y ∈ slots ns (graphOps ops (p, c))) →
      renSign ns ops p c θ l = sgR (posZ (slots ns ops)) (l.map θ) := by
    intro l hl hs
    have := sgR_change (posZ (slots ns (graphOps ops (p, c)))) (fun y => posZ (slots ns ops) (θ y)) l
    rw [sorted_of_bef hl hs, one_mul] at this
    rw [sgR_map]
    exact this.symm
  unfold opSlots
  unfold renSign at key ⊢
  rw [pairProd_append, key _ (cre_bef _ _ _) (fun y hy => hsub y (List.mem_append_left _ hy)),
    key _ (ann_bef _ _ _) (fun y hy => hsub y (List.mem_append_right _ hy))]
  have : ((Wicked.creSlots ns k (opAt ops (pAt p k))).map (fun a => (((Wicked.annSlots ns k (opAt ops (pAt p k))).reverse).map
      (ordDiff (posZ (slots ns (graphOps ops (p, c)))) (fun y => posZ (slots ns ops) (θ y)) a)).prod)).prod = 1 := by
    apply List.prod_eq_one
    intro z hz
    obtain ⟨a, ha, rfl⟩ := List.mem_map.1 hz
    apply List.prod_eq_one
    intro z hz
    obtain ⟨b, hb, rfl⟩ := List.mem_map.1 hz
    have ha' := hsub a (List.mem_append_left _ ha)
    have hb' := hsub b (List.mem_append_right _ hb)
    have a1 := mem_creSlots.1 ha
    have b1 := mem_annSlots.1 (List.mem_reverse.1 hb)
    have a2 := h.op ha'
    have b2 := h.op hb'
    unfold ordDiff
    rw [if_pos]
    rw [posZ_bef hb' ha', posZ_bef (h.mem hb') (h.mem ha')]
    exact bef_within b1.1 a1.1 (by rw [b2.1, b1.1]) (by rw [a2.1, a1.1]) b2.2.1 a2.2.1 b2.2.2 a2.2.2 (Or.inr (by rw [a1.2.2.1, b1.2.2.1]; simp))
  rw [this, mul_one]

theorem pAt_inj {n : Nat} {p : List Int} (hp : IsPermOf n p) {j k : Nat} (hj : j < n) (hk : k < n) (h : pAt p j = pAt p k) : j = k := by
  have := perm_pAt hp (fun i => i)
  rw [List.map_id'] at this
  exact List.inj_on_of_nodup_map (this.nodup_iff.2 List.nodup_range) (List.mem_range.2 hj) (List.mem_range.2 hk) h

/-- sign of the whole renaming: exchanges of operators times signs within the factors -/
theorem Renaming.total (h : Renaming ns ops p c θ) (h8 : ns ≤ 8) (hv : ∀ q ∈ ops, q.Valid ns) (hp : IsPermOf ops.length p) :
    renSign ns ops p c θ (slots ns (graphOps ops (p, c))) =
      exchangeSign (fun i => (opAt ops i.toNat).numOps) p *
      ((List.range ops.length).map (fun k => renSign ns ops p c θ (opSlots ns k (opAt ops (pAt p k))))).prod := by
  have e0 : slots ns (graphOps ops (p, c)) = (List.range ops.length).flatMap (fun k => opSlots ns k (opAt ops (pAt p k))) := by
    rw [slots_eq, length_graphOps hp]
    apply List.flatMap_congr
    intro k hk
    rw [opAt_graphOps hp (List.mem_range.1 hk)]
  have e1 : ∀ k < ops.length, ∀ y ∈ opSlots ns k (opAt ops (pAt p k)), y ∈ slots ns (graphOps ops (p, c)) := by
    intro k hk y hy
    rw [e0]; exact List.mem_flatMap.2 ⟨k, List.mem_range.2 hk, hy⟩
  unfold renSign
  rw [congrArg (pairProd (ordDiff (posZ (slots ns (graphOps ops (p, c)))) (fun y => posZ (slots ns ops) (θ y)))) e0]
  rw [pairProd_flatMap, mul_comm]
  congr 1
  · rw [exchangeSign_pairProd]
    have hpm : p = (List.range ops.length).map (fun k => ((pAt p k : Nat) : Int)) := by
      have := map_pAt hp (fun k => ((k : Nat) : Int))
      rw [← this]
      symm
      refine (List.map_congr_left (g := id) (fun i hi => ?_)).trans (List.map_id _)
      obtain ⟨j, _, rfl⟩ := List.mem_map.1 (hp.mem_iff.1 hi)
      simp
    conv_rhs => rw [hpm]
    rw [pairProd_map]
    apply pairProd_congr
    have hlt : (List.range ops.length).Pairwise (· < ·) := List.pairwise_lt_range
    refine List.Pairwise.imp_of_mem ?_ hlt
    intro i j hi hj hij
    have hi := List.mem_range.1 hi
    have hj := List.mem_range.1 hj
    rw [prod_const_list (c := (if pAt p j < pAt p i then -1 else (1 : Int)) ^ (opSlots ns j (opAt ops (pAt p j))).length)]
    · rw [← pow_mul]
      simp only [Int.toNat_natCast, Nat.cast_lt]
      have li := length_opSlots_numOps h8 (opAt_valid hv (pAt_lt hp hi)) i
      have lj := length_opSlots_numOps h8 (opAt_valid hv (pAt_lt hp hj)) j
      rw [← li, ← lj, ← Nat.cast_mul, Int.toNat_natCast, mul_comm]
      split <;> simp
    · intro y hy
      apply prod_const_list
      intro z hz
      have hy' := e1 i hi y hy
      have hz' := e1 j hj z hz
      have y1 := mem_opSlots.1 hy
      have z1 := mem_opSlots.1 hz
      have hlt' : ¬ posZ (slots ns (graphOps ops (p, c))) z < posZ (slots ns (graphOps ops (p, c))) y := by
        rw [posZ_bef hz' hy']
        intro hb
        have : Slot.Bef y z := Or.inl (by rw [y1.1, z1.1]; exact hij)
        exact Slot.bef_asymm this hb
      have hth : posZ (slots ns ops) (θ z) < posZ (slots ns ops) (θ y) ↔ pAt p j < pAt p i := by
        have hne : pAt p j ≠ pAt p i := fun e => by have := pAt_inj hp hj hi e; omega
        rw [posZ_bef (h.mem hz') (h.mem hy')]
        unfold Slot.Bef
        rw [(h.op hz').1, (h.op hy').1, z1.1, y1.1]
        constructor
        · rintro (h | h)
          · exact h
          · exact absurd h.1 hne
        · exact Or.inl
      unfold ordDiff
      by_cases hx : pAt p j < pAt p i
      · rw [if_pos hx, if_neg]
        exact fun hh => hlt' (hh.2 (hth.2 hx))
      · rw [if_neg hx, if_pos]
        exact ⟨fun hh => absurd hh hlt', fun hh => absurd (hth.1 hh) hx⟩

end

section
variable {Ω R A : Type} [Inhabited Ω] [DecidableEq Ω] [CommRing R] [Ring A] [Algebra R A]
variable {ns : Nat} {ops : OperatorProduct} {p c : List Int} {θ : Slot → Slot}

/-- tensor elements under renaming -/
theorem Renaming.elements (h : Renaming ns ops p c θ) (hp : IsPermOf ops.length p) {v : OrbSystem Ω R A} (hv : v.Antisymmetric) (x : Slot → Ω) :
    opElements v ns ops x = ((((List.range ops.length).map (fun k => renSign ns ops p c θ (opSlots ns k (opAt ops (pAt p k))))).prod : Int) : R) *
      opElements v ns (graphOps ops (p, c)) (fun y => x (θ y)) := by
  unfold opElements
  rw [← (perm_pAt hp (fun k => v.T (opAt ops k).label ((Wicked.creSlots ns k (opAt ops k)).map x) ((Wicked.annSlots ns k (opAt ops k)).map x))).prod_eq,
    length_graphOps hp, Int.cast_list_prod, List.map_map, ← List.prod_map_mul]
  congr 1
  apply List.map_congr_left
  intro k hk
  have hk := List.mem_range.1 hk
  simp only [Function.comp_apply]
  rw [h.within hp hk, opAt_graphOps hp hk]
  have hL : ∀ y ∈ Wicked.creSlots ns (pAt p k) (opAt ops (pAt p k)), y ∈ slots ns ops := creSlots_sub (pAt_lt hp hk)
  have hA : ∀ y ∈ (Wicked.annSlots ns (pAt p k) (opAt ops (pAt p k))).reverse, y ∈ slots ns ops :=
    fun y hy => annSlots_sub (pAt_lt hp hk) y (List.mem_reverse.1 hy)
  generalize hlab : (opAt ops (pAt p k)).label = lab
  have hc := sgR_smul_perm (r := posZ (slots ns ops)) (h.creSlots hp hk).symm (posZ_nodup (List.nodup_append.1 (nodup_opSlots ns _ _)).1 hL)
    (fun l => v.T lab (l.map x) ((Wicked.annSlots ns (pAt p k) (opAt ops (pAt p k))).map x)) (by
      intro pre a b post
      simp only [List.map_append, List.map_cons]
      exact (hv _).1 _ _ _ _ _)
  have ha := sgR_smul_perm (r := posZ (slots ns ops)) (h.annSlots hp hk).symm (posZ_nodup (List.nodup_append.1 (nodup_opSlots ns _ _)).2.1 hA)
    (fun l => v.T lab (((Wicked.creSlots ns k (opAt ops (pAt p k))).map θ).map x) ((l.map x).reverse)) (by
      intro pre a b post
      simp only [List.map_append, List.map_cons, List.reverse_append, List.reverse_cons, List.append_assoc, List.cons_append, List.nil_append]
      exact (hv _).2 _ _ _ _ _)
  rw [sorted_of_bef (cre_bef _ _ _) hL, one_smul] at hc
  rw [sorted_of_bef (ann_bef _ _ _) hA, one_smul] at ha
  beta_reduce at hc ha
  rw [hc]
  rw [List.map_reverse, List.reverse_reverse] at ha
  rw [ha]
  simp only [List.map_reverse, List.reverse_reverse, zsmul_eq_mul, List.map_map, Int.cast_mul, Function.comp_def, mul_assoc]

/-- **the value of a listing under renaming** -/
theorem Renaming.value {o : OSI} (hns : ns = o.spaces.length) (h : Renaming ns ops p c θ) (h8 : ns ≤ 8) (hvo : ∀ q ∈ ops, q.Valid ns)
    (hp : IsPermOf ops.length p) {v : OrbSystem Ω R A} (hv : v.Antisymmetric)
    {bs : List Block} {rs : List Slot} (hl : IsListing o (graphOps ops (p, c)) bs rs)
    (hord : ∀ b ∈ bs, ∀ y z, b.cre = [y] → b.ann = [z] →
      (posZ (slots ns (graphOps ops (p, c))) y < posZ (slots ns (graphOps ops (p, c))) z ↔ posZ (slots ns ops) (θ y) < posZ (slots ns ops) (θ z))) :
    sumOver (slots ns ops).toFinset (fun y => v.dom y.space) (fun x =>
        opElements v ns ops x • listVal v o (slots ns ops) x (bs.map (Block.ren θ)) (rs.map θ)) =
      ((exchangeSign (fun i => (opAt ops i.toNat).numOps) p : Int) : R) •
        sumOver (slots ns (graphOps ops (p, c))).toFinset (fun y => v.dom y.space) (fun x =>
          opElements v ns (graphOps ops (p, c)) x • listVal v o (slots ns (graphOps ops (p, c))) x bs rs) := by
  have hsm : ((exchangeSign (fun i => (opAt ops i.toNat).numOps) p : Int) : R) •
        sumOver (slots ns (graphOps ops (p, c))).toFinset (fun y => v.dom y.space) (fun x =>
          opElements v ns (graphOps ops (p, c)) x • listVal v o (slots ns (graphOps ops (p, c))) x bs rs) =
      sumOver (slots ns (graphOps ops (p, c))).toFinset (fun y => v.dom y.space) (fun x =>
          ((exchangeSign (fun i => (opAt ops i.toNat).numOps) p : Int) : R) •
          (opElements v ns (graphOps ops (p, c)) x • listVal v o (slots ns (graphOps ops (p, c))) x bs rs)) := Finset.smul_sum
  rw [hsm]
  rw [← sumOver_bij (slots ns (graphOps ops (p, c))).toFinset (slots ns ops).toFinset (fun y => v.dom y.space) (fun y => v.dom y.space) θ
    (fun y hy => List.mem_toFinset.2 (h.mem (List.mem_toFinset.1 hy)))
    (fun y hy z hz e => h.inj y (List.mem_toFinset.1 hy) z (List.mem_toFinset.1 hz) e)
    (fun z hz => by obtain ⟨y, hy, e⟩ := h.surj (List.mem_toFinset.1 hz); exact ⟨y, List.mem_toFinset.2 hy, e⟩)
    (fun y hy => by beta_reduce; rw [(h.op (List.mem_toFinset.1 hy)).2.1])]
  · apply sumOver_congr
    intro x _
    subst hns
    rw [listVal_ren v θ hl.blocks hl.perm (fun y hy => h.mem hy) h.inj (fun y hy => (h.op hy).2.2) hord, h.elements hp hv]
    have ht := h.total h8 hvo hp
    unfold renSign at ht ⊢
    rw [ht]
    have hsq : ∀ P : Int, P * P = 1 → ((P : Int) : R) * ((P : Int) : R) = 1 := by
      intro P h; rw [← Int.cast_mul, h, Int.cast_one]
    have hPP : ∀ l : List Nat, (l.map (fun k => pairProd (ordDiff (posZ (slots o.spaces.length (graphOps ops (p, c)))) (fun y => posZ (slots o.spaces.length ops) (θ y)))
        (opSlots o.spaces.length k (opAt ops (pAt p k))))).prod * (l.map (fun k => pairProd (ordDiff (posZ (slots o.spaces.length (graphOps ops (p, c)))) (fun y => posZ (slots o.spaces.length ops) (θ y)))
        (opSlots o.spaces.length k (opAt ops (pAt p k))))).prod = 1 := by
      intro l
      have one : ∀ m : List Slot, pairProd (ordDiff (posZ (slots o.spaces.length (graphOps ops (p, c)))) (fun y => posZ (slots o.spaces.length ops) (θ y))) m *
          pairProd (ordDiff (posZ (slots o.spaces.length (graphOps ops (p, c)))) (fun y => posZ (slots o.spaces.length ops) (θ y))) m = 1 := by
        intro m
        rw [← pairProd_mul]
        apply pairProd_one
        rw [List.pairwise_iff_forall_sublist]
        intro a b _
        unfold ordDiff
        split <;> rfl
      induction l with
      | nil => simp
      | cons a l ih =>
        rw [List.map_cons, List.prod_cons, mul_mul_mul_comm, one, ih, one_mul]
    have := hsq _ (hPP (List.range ops.length))
    generalize (List.map (fun k => pairProd (ordDiff (posZ (slots o.spaces.length (graphOps ops (p, c)))) (fun y => posZ (slots o.spaces.length ops) (θ y)))
        (opSlots o.spaces.length k (opAt ops (pAt p k)))) (List.range ops.length)).prod = P at *
    rw [smul_smul, smul_smul, Int.cast_mul]
    congr 1
    linear_combination (opElements v o.spaces.length (graphOps ops (p, c)) (fun y => x (θ y)) *
      ((exchangeSign (fun i => (opAt ops i.toNat).numOps) p : Int) : R)) * this
  · intro x y hxy
    rw [opElements_congr v ns (graphOps ops (p, c)) (fun z hz => hxy z (List.mem_toFinset.2 hz))]
    congr 2
    unfold listVal
    have h1 : bs.map (bval v o (slots ns (graphOps ops (p, c))) x) = bs.map (bval v o (slots ns (graphOps ops (p, c))) y) := by
      apply List.map_congr_left
      intro b hb
      have hz : ∀ z ∈ b.flat, x z = y z := fun z hz => hxy z (List.mem_toFinset.2 (by
        rw [hns]; exact hl.perm.mem_iff.1 (List.mem_append_left _ (List.mem_flatMap.2 ⟨b, hb, hz⟩))))
      rw [bval_eq (hl.blocks b hb), bval_eq (hl.blocks b hb), bten_congr v o _ hz]
      congr 3
      apply List.map_congr_left
      intro q hq
      have hq' : q.1 ∈ b.flat ∧ q.2 ∈ b.flat := by
        have hok := hl.blocks b hb
        obtain ⟨t, ht⟩ := blockOK_type hok
        unfold bPairs at hq
        rw [ht] at hq
        cases t with
        | general => simp at hq
        | occupied =>
          obtain ⟨c, a, hc, ha⟩ := block_one hok (by rw [ht]; simp)
          unfold Block.flat
          rw [hc, ha] at hq ⊢
          simp at hq
          subst hq; simp
        | unoccupied =>
          obtain ⟨c, a, hc, ha⟩ := block_one hok (by rw [ht]; simp)
          unfold Block.flat
          rw [hc, ha] at hq ⊢
          simp at hq
          subst hq; simp
      rw [hz _ hq'.1, hz _ hq'.2]
    have h2 : rs.map (fun z => v.op z.type (x z)) = rs.map (fun z => v.op z.type (y z)) := by
      apply List.map_congr_left
      intro z hz
      rw [hxy z (List.mem_toFinset.2 (by rw [hns]; exact hl.perm.mem_iff.1 (List.mem_append_right _ hz)))]
    rw [h1, h2]

end
end Wick
end Wicked
