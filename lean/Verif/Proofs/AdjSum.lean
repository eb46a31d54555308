import Verif.Proofs.WickScheme
import Verif.Proofs.WickSchemes
import Verif.Proofs.SumProd
import Verif.Proofs.GM
import Verif.Spec.Adjoint
import Mathlib.Algebra.Star.Basic
import Mathlib.Algebra.Star.BigOperators
/-! Wick's theorem for the adjoint of a product: the second-quantized operators of the adjoint product are those of the product in the
opposite order, with creation and annihilation exchanged; schemes of contractions correspond to each other, and so do their signs and
values. -/
namespace Wicked
open CppLt CppEq Rational
namespace Wick

/-- the operator of the adjoint product of `n` factors that corresponds to `y` -/
def adjSlot (n : Nat) (y : Slot) : Slot := ⟨if y.op < n then n - 1 - y.op else y.op, y.space, !y.cre, y.k⟩

theorem adjSlot_inv (n : Nat) (y : Slot) : adjSlot n (adjSlot n y) = y := by
  rcases y with ⟨a, s, c, k⟩
  unfold adjSlot
  by_cases h : a < n
  · simp only [if_pos h, if_pos (show n - 1 - a < n by omega), Bool.not_not]
    congr 1; omega
  · simp [h]

theorem adjSlot_inj (n : Nat) : Function.Injective (adjSlot n) := fun a b h => by rw [← adjSlot_inv n a, h, adjSlot_inv]

theorem adj_cre {ns : Nat} (h8 : ns ≤ 8) (p : Operator) {s : Nat} (hs : s < ns) :
    (p.adjoint ns).gm.cre s = p.gm.ann s ∧ (p.adjoint ns).gm.ann s = p.gm.cre s := by
  unfold Operator.adjoint GraphMatrix.adjoint GraphMatrix.cre GraphMatrix.ann
  rw [gm_get_tab, if_pos (by omega), if_pos hs]
  exact ⟨rfl, rfl⟩

/-- exchange creation and annihilation, and set the number of the factor -/
def flipTo (k : Nat) (y : Slot) : Slot := ⟨k, y.space, !y.cre, y.k⟩

theorem adj_creSlots {ns : Nat} (h8 : ns ≤ 8) (k j : Nat) (p : Operator) :
    creSlots ns k (p.adjoint ns) = (annSlots ns j p).map (flipTo k) ∧ annSlots ns k (p.adjoint ns) = (creSlots ns j p).map (flipTo k) := by
  unfold creSlots annSlots
  rw [List.map_flatMap, List.map_flatMap]
  constructor
  · apply List.flatMap_congr
    intro s hs
    rw [(adj_cre h8 p (List.mem_range.1 hs)).1, List.map_map]; rfl
  · apply List.flatMap_congr
    intro s hs
    rw [(adj_cre h8 p (List.mem_range.1 hs)).2, List.map_map]; rfl

theorem adj_opSlots {ns : Nat} (h8 : ns ≤ 8) (k j : Nat) (p : Operator) :
    opSlots ns k (p.adjoint ns) = (opSlots ns j p).reverse.map (flipTo k) := by
  unfold opSlots
  rw [(adj_creSlots h8 k j p).1, (adj_creSlots h8 k j p).2, List.reverse_append, List.reverse_reverse, List.map_append, List.map_reverse]

theorem slotsFrom_snoc (ns : Nat) (p : Operator) : ∀ (l : OperatorProduct) (k : Nat), slotsFrom ns k (l ++ [p]) = slotsFrom ns k l ++ opSlots ns (k + l.length) p := by
  intro l
  induction l with
  | nil => intro k; simp [slotsFrom]
  | cons q l ih =>
    intro k
    rw [List.cons_append, slotsFrom, ih, slotsFrom, List.append_assoc, List.length_cons]
    congr 3
    omega

theorem mem_opSlots_op {ns k : Nat} {p : Operator} {y : Slot} (h : y ∈ opSlots ns k p) : y.op = k := by
  unfold opSlots creSlots annSlots at h
  simp only [List.mem_append, List.mem_reverse, List.mem_flatMap, List.mem_map] at h
  rcases h with ⟨_, _, _, _, rfl⟩ | ⟨_, _, _, _, rfl⟩ <;> rfl

theorem adjoint_cons (ns : Nat) (p : Operator) (ops : OperatorProduct) :
    OperatorProduct.adjoint ns (p :: ops) = OperatorProduct.adjoint ns ops ++ [p.adjoint ns] := by
  unfold OperatorProduct.adjoint
  rw [List.map_cons, List.reverse_cons]

theorem adjoint_length (ns : Nat) (ops : OperatorProduct) : (OperatorProduct.adjoint ns ops).length = ops.length := by
  unfold OperatorProduct.adjoint; simp

/-- the map from the operators number `j`, `j+1`, ... to those number `k`, ... of the adjoint -/
def adjFrom (k t : Nat) (y : Slot) : Slot := ⟨k + (t - y.op), y.space, !y.cre, y.k⟩

theorem adj_slotsFrom {ns : Nat} (h8 : ns ≤ 8) : ∀ (ops : OperatorProduct) (k j : Nat),
    slotsFrom ns k (OperatorProduct.adjoint ns ops) = (slotsFrom ns j ops).reverse.map (adjFrom k (j + ops.length - 1)) := by
  intro ops
  induction ops with
  | nil => intro k j; rfl
  | cons p ops ih =>
    intro k j
    rw [adjoint_cons, slotsFrom_snoc, ih k (j + 1), adjoint_length, slotsFrom, List.reverse_append, List.map_append,
      show j + 1 + ops.length - 1 = j + (p :: ops).length - 1 by rw [List.length_cons]; omega, adj_opSlots h8 _ j p]
    congr 1
    apply List.map_congr_left
    intro y hy
    have := mem_opSlots_op (List.mem_reverse.1 hy)
    unfold flipTo adjFrom
    rw [this, List.length_cons]
    congr 1
    omega

theorem slot_op_lt {ns : Nat} {y : Slot} : ∀ (ops : OperatorProduct) (j : Nat), y ∈ slotsFrom ns j ops → j ≤ y.op ∧ y.op < j + ops.length := by
  intro ops
  induction ops with
  | nil => intro j h; cases h
  | cons p ops ih =>
    intro j h
    rw [slotsFrom, List.mem_append] at h
    rw [List.length_cons]
    rcases h with h | h
    · have := mem_opSlots_op h; omega
    · have := ih _ h; omega

theorem adj_slots {ns : Nat} (h8 : ns ≤ 8) (ops : OperatorProduct) :
    slots ns (OperatorProduct.adjoint ns ops) = (slots ns ops).reverse.map (adjSlot ops.length) := by
  unfold slots
  rw [adj_slotsFrom h8 ops 0 0]
  apply List.map_congr_left
  intro y hy
  have := slot_op_lt ops 0 (List.mem_reverse.1 hy)
  unfold adjFrom adjSlot
  rw [if_pos (by omega)]
  congr 1
  omega

/-! ### tensor elements -/
section
variable {Ω R A : Type} [CommRing R] [StarRing R] [Ring A] [Algebra R A]

theorem elemsFrom_snoc (v : OrbSystem Ω R A) (ns : Nat) (p : Operator) (x : Slot → Ω) : ∀ (l : OperatorProduct) (k : Nat),
    elemsFrom v ns k (l ++ [p]) x = elemsFrom v ns k l x * elemAt v ns (k + l.length) p x := by
  intro l
  induction l with
  | nil => intro k; simp [elemsFrom]
  | cons q l ih =>
    intro k
    rw [List.cons_append, elemsFrom, ih, elemsFrom, List.length_cons, mul_assoc, show k + 1 + l.length = k + (l.length + 1) by omega]

theorem adj_elemsFrom {v : OrbSystem Ω R A} (hH : v.Hermitian) {ns : Nat} (h8 : ns ≤ 8) (x : Slot → Ω) : ∀ (ops : OperatorProduct) (k j : Nat),
    elemsFrom v ns k (OperatorProduct.adjoint ns ops) x = star (elemsFrom v ns j ops (fun y => x (adjFrom k (j + ops.length - 1) y))) := by
  intro ops
  induction ops with
  | nil => intro k j; simp [elemsFrom, OperatorProduct.adjoint]
  | cons p ops ih =>
    intro k j
    rw [adjoint_cons, elemsFrom_snoc, ih k (j + 1), adjoint_length, elemsFrom, star_mul',
      show j + 1 + ops.length - 1 = j + (p :: ops).length - 1 by rw [List.length_cons]; omega, mul_comm]
    congr 1
    unfold elemAt
    rw [hH, (adj_creSlots h8 _ j p).1, (adj_creSlots h8 _ j p).2, List.map_map, List.map_map]
    have e : ∀ y ∈ opSlots ns j p, x (flipTo (k + ops.length) y) = x (adjFrom k (j + (p :: ops).length - 1) y) := by
      intro y hy
      have := mem_opSlots_op hy
      unfold flipTo adjFrom
      rw [this, List.length_cons]
      congr 2
      omega
    congr 1
    · apply List.map_congr_left
      intro y hy
      exact e y (by unfold opSlots; simp [hy])
    · apply List.map_congr_left
      intro y hy
      exact e y (by unfold opSlots; simp [hy])

theorem elemsFrom_congr (v : OrbSystem Ω R A) (ns : Nat) {x x' : Slot → Ω} : ∀ (ops : OperatorProduct) (k : Nat),
    (∀ y ∈ slotsFrom ns k ops, x y = x' y) → elemsFrom v ns k ops x = elemsFrom v ns k ops x' := by
  intro ops
  induction ops with
  | nil => intro k _; rfl
  | cons p ops ih =>
    intro k h
    rw [elemsFrom, elemsFrom, ih (k + 1) (fun y hy => h y (by rw [slotsFrom]; simp [hy]))]
    congr 1
    unfold elemAt
    have e : ∀ y ∈ opSlots ns k p, x y = x' y := fun y hy => h y (by rw [slotsFrom]; simp [hy])
    congr 1
    · exact List.map_congr_left (fun y hy => e y (by unfold opSlots; simp [hy]))
    · exact List.map_congr_left (fun y hy => e y (by unfold opSlots; simp [hy]))

theorem adj_opElements [Inhabited Ω] {v : OrbSystem Ω R A} (hH : v.Hermitian) {ns : Nat} (h8 : ns ≤ 8) (ops : OperatorProduct) (x : Slot → Ω) :
    opElements v ns (OperatorProduct.adjoint ns ops) x = star (opElements v ns ops (fun y => x (adjSlot ops.length y))) := by
  rw [opElements_eq, opElements_eq, adj_elemsFrom hH h8 x ops 0 0]
  congr 1
  apply elemsFrom_congr
  intro y hy
  have := slot_op_lt ops 0 hy
  unfold adjFrom adjSlot
  rw [if_pos (by omega)]
  congr 2
  omega
end

/-! ### positions and signs -/

/-- the corresponding list of operators -/
def adjList (n : Nat) (l : List Slot) : List Slot := l.reverse.map (adjSlot n)

theorem mem_adjList {n : Nat} {l : List Slot} {y : Slot} : y ∈ adjList n l ↔ adjSlot n y ∈ l := by
  unfold adjList
  rw [List.mem_map]
  constructor
  · rintro ⟨z, hz, rfl⟩
    rw [adjSlot_inv]; exact List.mem_reverse.1 hz
  · intro h
    exact ⟨_, List.mem_reverse.2 h, adjSlot_inv n y⟩

theorem nodup_adjList {n : Nat} {l : List Slot} (h : l.Nodup) : (adjList n l).Nodup :=
  (List.nodup_reverse.2 h).map (adjSlot_inj n)

theorem length_adjList (n : Nat) (l : List Slot) : (adjList n l).length = l.length := by unfold adjList; simp

theorem idxOf_adjList {n : Nat} {L : List Slot} (hn : L.Nodup) {a : Slot} (ha : a ∈ L) :
    (adjList n L).idxOf (adjSlot n a) = L.length - 1 - L.idxOf a := by
  have hi := List.idxOf_lt_length_of_mem ha
  have hj : L.length - 1 - L.idxOf a < (adjList n L).length := by rw [length_adjList]; omega
  have e : (adjList n L)[L.length - 1 - L.idxOf a] = adjSlot n a := by
    simp only [adjList, List.getElem_map, List.getElem_reverse]
    congr 1
    have : L.length - 1 - (L.length - 1 - L.idxOf a) = L.idxOf a := by omega
    simp only [this, List.getElem_idxOf hi]
  rw [← e, (nodup_adjList hn).idxOf_getElem]

theorem posZ_adj {n : Nat} {L : List Slot} (hn : L.Nodup) {a b : Slot} (ha : a ∈ L) (hb : b ∈ L) :
    posZ (adjList n L) (adjSlot n a) < posZ (adjList n L) (adjSlot n b) ↔ posZ L b < posZ L a := by
  unfold posZ
  rw [idxOf_adjList hn ha, idxOf_adjList hn hb]
  have h1 := List.idxOf_lt_length_of_mem ha
  have h2 := List.idxOf_lt_length_of_mem hb
  omega

theorem pairProd_reverse {α M : Type _} [CommMonoid M] (f : α → α → M) (l : List α) : pairProd f l.reverse = pairProd (fun a b => f b a) l := by
  induction l with
  | nil => rfl
  | cons a l ih =>
    rw [List.reverse_cons, pairProd_append, ih, pairProd]
    simp only [pairProd, List.map_cons, List.map_nil, List.prod_cons, List.prod_nil, mul_one]
    rw [List.map_reverse, List.prod_reverse]
    exact mul_comm _ _

theorem sgR_adj {n : Nat} {L : List Slot} (hn : L.Nodup) {Q : List Slot} (hQ : ∀ y ∈ Q, y ∈ L) :
    sgR (posZ (adjList n L)) (adjList n Q) = sgR (posZ L) Q := by
  unfold adjList sgR
  rw [pairProd_map, pairProd_reverse]
  apply pairProd_congr
  rw [List.pairwise_iff_forall_sublist]
  intro a b hab
  have ha := hQ a (hab.subset (show a ∈ [a, b] by simp))
  have hb := hQ b (hab.subset (show b ∈ [a, b] by simp))
  have := posZ_adj (n := n) hn ha hb
  unfold adjList at this
  simp only [this]

theorem crossSg_adj {n : Nat} {L : List Slot} (hn : L.Nodup) {l m : List Slot} (hl : ∀ y ∈ l, y ∈ L) (hm : ∀ y ∈ m, y ∈ L) (hd : ∀ a ∈ l, a ∉ m)
    (he : Even l.length) : crossSg (posZ (adjList n L)) (adjList n l) (adjList n m) = crossSg (posZ L) l m := by
  have e1 : crossSg (posZ (adjList n L)) (adjList n l) (adjList n m) = crossSg (posZ (adjList n L)) (l.map (adjSlot n)) (m.map (adjSlot n)) :=
    crossSg_perm _ ((List.reverse_perm l).map _) ((List.reverse_perm m).map _)
  have e2 : crossSg (posZ (adjList n L)) (l.map (adjSlot n)) (m.map (adjSlot n)) =
      (l.map (fun a => (m.map (fun b => if posZ L a < posZ L b then -1 else (1 : Int))).prod)).prod := by
    unfold crossSg
    rw [List.map_map]
    congr 1
    apply List.map_congr_left
    intro a ha
    simp only [Function.comp_apply, List.map_map]
    congr 1
    apply List.map_congr_left
    intro b hb
    simp only [Function.comp_apply, posZ_adj (n := n) hn (hm b hb) (hl a ha)]
  have e3 : (l.map (fun a => (m.map (fun b => if posZ L a < posZ L b then -1 else (1 : Int))).prod)).prod = crossSg (posZ L) m l := by
    unfold crossSg
    clear e1 e2 he hl hm hd
    induction l with
    | nil => simp
    | cons a l ih =>
      simp only [List.map_cons, List.prod_cons, ih, List.prod_map_mul]
  rw [e1, e2, e3]
  exact crossSg_symm he (fun a ha b hb h => hd b hb (by rw [← posZ_inj (hm a ha) h]; exact ha))

/-! ### contractions -/

theorem mem_image_adj {n : Nat} {b : Finset Slot} {y : Slot} : adjSlot n y ∈ b.image (adjSlot n) ↔ y ∈ b :=
  ⟨fun h => by obtain ⟨z, hz, e⟩ := Finset.mem_image.1 h; rwa [adjSlot_inj n e] at hz, fun h => Finset.mem_image_of_mem _ h⟩

theorem mem_image_adj' {n : Nat} {b : Finset Slot} {y : Slot} : y ∈ b.image (adjSlot n) ↔ adjSlot n y ∈ b := by
  rw [← mem_image_adj (n := n) (y := adjSlot n y), adjSlot_inv]

theorem image_adj_inv (n : Nat) (b : Finset Slot) : (b.image (adjSlot n)).image (adjSlot n) = b := by
  ext y; rw [mem_image_adj', mem_image_adj]

theorem creOf_adj (n : Nat) (L : List Slot) (b : Finset Slot) : creOf (adjList n L) (b.image (adjSlot n)) = adjList n (annOf L b) := by
  unfold creOf annOf adjList
  rw [List.filter_map, ← List.filter_reverse]
  congr 2
  funext y
  simp only [Function.comp_apply, mem_image_adj]
  rfl

theorem annOf_adj (n : Nat) (L : List Slot) (b : Finset Slot) : annOf (adjList n L) (b.image (adjSlot n)) = adjList n (creOf L b) := by
  unfold creOf annOf adjList
  rw [List.filter_map, ← List.filter_reverse]
  congr 2
  funext y
  simp only [Function.comp_apply, mem_image_adj]
  unfold adjSlot
  simp

theorem adjList_append (n : Nat) (l m : List Slot) : adjList n (l ++ m) = adjList n m ++ adjList n l := by
  unfold adjList; rw [List.reverse_append, List.map_append]

theorem conOrder_adj (n : Nat) (L : List Slot) (b : Finset Slot) : conOrder (adjList n L) (b.image (adjSlot n)) = adjList n (conOrder L b) := by
  unfold conOrder
  rw [Finset.card_image_of_injective _ (adjSlot_inj n)]
  split
  · unfold adjList
    rw [List.filter_map, ← List.filter_reverse]
    congr 2
    funext y
    simp only [Function.comp_apply, mem_image_adj]
  · rw [creOf_adj, annOf_adj, adjList_append]

/-- the corresponding set of contractions -/
def adjScheme (n : Nat) (S : Finset (Finset Slot)) : Finset (Finset Slot) := S.image (fun b => b.image (adjSlot n))

theorem adjScheme_inj (n : Nat) : Function.Injective (fun b : Finset Slot => b.image (adjSlot n)) :=
  fun a b h => by rw [← image_adj_inv n a, ← image_adj_inv n b]; exact congrArg _ h

theorem adjScheme_inv (n : Nat) (S : Finset (Finset Slot)) : adjScheme n (adjScheme n S) = S := by
  unfold adjScheme
  rw [Finset.image_image]
  have : ((fun b : Finset Slot => b.image (adjSlot n)) ∘ fun b => b.image (adjSlot n)) = id := by
    funext b; exact image_adj_inv n b
  rw [this, Finset.image_id]

theorem leftOver_adj (n : Nat) (L : List Slot) (S : Finset (Finset Slot)) : leftOver (adjList n L) (adjScheme n S) = adjList n (leftOver L S) := by
  unfold leftOver adjList
  rw [List.filter_map, ← List.filter_reverse]
  congr 2
  funext y
  simp only [Function.comp_apply]
  congr 1
  apply propext
  constructor
  · intro h b hb hy
    exact h _ (Finset.mem_image_of_mem _ hb) (mem_image_adj.2 hy)
  · intro h b hb hy
    obtain ⟨c, hc, rfl⟩ := Finset.mem_image.1 hb
    exact h c hc (mem_image_adj.1 hy)

theorem contraction_adj {o : OSI} {m : Int} {n : Nat} {b : Finset Slot} (hop : ∀ y ∈ b, y.op < n) (h : IsContraction o m b) :
    IsContraction o m (b.image (adjSlot n)) := by
  obtain ⟨s, hs, hsp, h⟩ := h
  refine ⟨s, hs, ?_, ?_⟩
  · intro x hx
    have := hsp _ (mem_image_adj'.1 hx)
    exact this
  have opn : ∀ y : Slot, y.op < n → (adjSlot n y).op = n - 1 - y.op := fun y hy => by unfold adjSlot; rw [if_pos hy]
  rcases h with ⟨ht, c, a, rfl, h1, h2, h3⟩ | ⟨ht, a, c, rfl, h1, h2, h3⟩ | ⟨ht, h1, h2, h3, x, hx, y, hy, hne⟩
  · left
    refine ⟨ht, adjSlot n a, adjSlot n c, ?_, ?_, ?_, ?_⟩
    · rw [Finset.image_insert, Finset.image_singleton, Finset.pair_comm]
    · unfold adjSlot; simp [h2]
    · unfold adjSlot; simp [h1]
    · have e1 := hop c (by simp)
      have e2 := hop a (by simp)
      rw [opn _ e1, opn _ e2]; omega
  · right; left
    refine ⟨ht, adjSlot n c, adjSlot n a, ?_, ?_, ?_, ?_⟩
    · rw [Finset.image_insert, Finset.image_singleton, Finset.pair_comm]
    · unfold adjSlot; simp [h2]
    · unfold adjSlot; simp [h1]
    · have e1 := hop c (by simp)
      have e2 := hop a (by simp)
      rw [opn _ e1, opn _ e2]; omega
  · right; right
    have f1 : ((b.image (adjSlot n)).filter (fun x => x.cre = true)).card = (b.filter (fun x => x.cre = false)).card := by
      rw [Finset.filter_image, Finset.card_image_of_injective _ (adjSlot_inj n)]
      congr 2
      funext y
      unfold adjSlot; simp
    have f2 : ((b.image (adjSlot n)).filter (fun x => x.cre = false)).card = (b.filter (fun x => x.cre = true)).card := by
      rw [Finset.filter_image, Finset.card_image_of_injective _ (adjSlot_inj n)]
      congr 2
      funext y
      unfold adjSlot; simp
    refine ⟨ht, by rw [f1, f2, h1], by rw [f1, ← h1]; exact h2, by rw [f1, ← h1]; exact h3, adjSlot n x, Finset.mem_image_of_mem _ hx, adjSlot n y, Finset.mem_image_of_mem _ hy, ?_⟩
    have e1 := hop x hx
    have e2 := hop y hy
    rw [opn _ e1, opn _ e2]; omega

theorem scheme_adj {o : OSI} {m : Int} {ops ops' : OperatorProduct} {minr maxr : Int} {n : Nat}
    (hL : slots o.spaces.length ops' = adjList n (slots o.spaces.length ops)) (hop : ∀ y ∈ slots o.spaces.length ops, y.op < n)
    {S : Finset (Finset Slot)} (h : IsScheme o m ops minr maxr S) : IsScheme o m ops' minr maxr (adjScheme n S) := by
  obtain ⟨h1, h2, h3, h4, h5⟩ := h
  have hc : (∑ b ∈ adjScheme n S, b.card) = ∑ b ∈ S, b.card := by
    unfold adjScheme
    rw [Finset.sum_image (fun a _ b _ h => adjScheme_inj n h)]
    apply Finset.sum_congr rfl
    intro b _
    exact Finset.card_image_of_injective _ (adjSlot_inj n)
  refine ⟨?_, ?_, ?_, ?_, ?_⟩
  · intro b hb y hy
    obtain ⟨c, hc, rfl⟩ := Finset.mem_image.1 hb
    rw [List.mem_toFinset, hL, mem_adjList]
    exact List.mem_toFinset.1 (h1 c hc (mem_image_adj'.1 hy))
  · intro b hb
    obtain ⟨c, hc, rfl⟩ := Finset.mem_image.1 hb
    exact contraction_adj (fun y hy => hop y (List.mem_toFinset.1 (h1 c hc hy))) (h2 c hc)
  · intro b hb b' hb' hne
    obtain ⟨c, hc, rfl⟩ := Finset.mem_image.1 hb
    obtain ⟨c', hc', rfl⟩ := Finset.mem_image.1 hb'
    have := h3 c hc c' hc' (fun e => hne (by rw [e]))
    exact Finset.disjoint_image (adjSlot_inj n) |>.2 this
  · rw [hc, hL, length_adjList]; exact h4
  · rw [hc, hL, length_adjList]; exact h5

/-! ### values and weights -/

theorem con_lengths {o : OSI} {m : Int} {L : List Slot} {b : Finset Slot} (hn : L.Nodup) (hb : b ⊆ L.toFinset) (h : IsContraction o m b) :
    (creOf L b).length = (annOf L b).length ∧ Even (conOrder L b).length := by
  have hc : (creOf L b).length = (b.filter (fun x => x.cre = true)).card := by
    have hnd : (creOf L b).Nodup := hn.filter _
    rw [← List.toFinset_card_of_nodup hnd]
    congr 1
    ext y
    rw [List.mem_toFinset, Finset.mem_filter, mem_creOf]
    exact ⟨fun h => h.2, fun h => ⟨List.mem_toFinset.1 (hb h.1), h⟩⟩
  have ha : (annOf L b).length = (b.filter (fun x => x.cre = false)).card := by
    have hnd : (annOf L b).Nodup := hn.filter _
    rw [← List.toFinset_card_of_nodup hnd]
    congr 1
    ext y
    rw [List.mem_toFinset, Finset.mem_filter, mem_annOf]
    exact ⟨fun h => h.2, fun h => ⟨List.mem_toFinset.1 (hb h.1), h⟩⟩
  have e : (creOf L b).length = (annOf L b).length := by
    rw [hc, ha]
    obtain ⟨s, hs, hsp, h⟩ := h
    have pair : ∀ c a : Slot, c.cre = true → a.cre = false → (({c, a} : Finset Slot).filter (fun x => x.cre = true)).card =
        (({c, a} : Finset Slot).filter (fun x => x.cre = false)).card := by
      intro c a h1 h2
      rw [Finset.filter_insert, Finset.filter_singleton, Finset.filter_insert, Finset.filter_singleton]
      simp [h1, h2]
    rcases h with ⟨ht, c, a, rfl, h1, h2, h3⟩ | ⟨ht, a, c, rfl, h1, h2, h3⟩ | ⟨ht, h1, _⟩
    · exact pair c a h1 h2
    · rw [Finset.pair_comm]; exact pair c a h2 h1
    · exact h1
  refine ⟨e, ?_⟩
  rw [(conOrder_perm hn b).length_eq]
  unfold blk Block.flat
  simp only [List.length_append, e]
  exact ⟨_, rfl⟩

section
variable {Ω R A : Type} [Inhabited Ω] [DecidableEq Ω] [CommRing R] [StarRing R] [Ring A] [Algebra R A]

omit [Inhabited Ω] [StarRing R] in
theorem conVal_long (v : OrbSystem Ω R A) (o : OSI) (L : List Slot) (x : Slot → Ω) (b : Finset Slot) (h : (creOf L b).length ≠ 1) :
    conVal v o L x b = v.T ("lambda".toList ++ intStr (creOf L b).length) ((annOf L b).reverse.map x) ((creOf L b).map x) := by
  unfold conVal
  split
  · rename_i hc _
    rw [hc] at h
    exact absurd rfl h
  · rfl

theorem conVal_adj {v : OrbSystem Ω R A} (hH : v.Hermitian) {o : OSI} {m : Int} {L : List Slot} {b : Finset Slot} (hn : L.Nodup) (hb : b ⊆ L.toFinset)
    (h : IsContraction o m b) (n : Nat) (x : Slot → Ω) :
    conVal v o (adjList n L) x (b.image (adjSlot n)) = star (conVal v o L (fun y => x (adjSlot n y)) b) := by
  have hlen := (con_lengths hn hb h).1
  obtain ⟨s, hs, hsp, _⟩ := h
  by_cases h1 : (creOf L b).length = 1
  · unfold conVal
    rw [creOf_adj, annOf_adj]
    obtain ⟨c, hc⟩ := List.length_eq_one_iff.1 h1
    obtain ⟨a, ha⟩ := List.length_eq_one_iff.1 (hlen.symm.trans h1)
    have hcm := mem_creOf.1 (by rw [hc]; simp : c ∈ creOf L b)
    have ham := mem_annOf.1 (by rw [ha]; simp : a ∈ annOf L b)
    have hne : c ≠ a := by
      intro he; have := hcm.2.2; rw [he, ham.2.2] at this; cases this
    rw [hc, ha]
    have ec : adjList n [c] = [adjSlot n c] := rfl
    have ea : adjList n [a] = [adjSlot n a] := rfl
    rw [ec, ea]
    have esp : (adjSlot n a).space = c.space := by
      show a.space = c.space
      have e1 := hsp c hcm.2.1
      have e2 := hsp a ham.2.1
      omega
    dsimp only
    rw [esp]
    have hpos : (adjList n L).idxOf (adjSlot n a) < (adjList n L).idxOf (adjSlot n c) ↔ L.idxOf c < L.idxOf a := by
      have := posZ_adj (n := n) hn ham.1 hcm.1
      unfold posZ at this
      omega
    split
    · simp only [hpos]
      split
      · rw [hH]
      · rw [hH]
    · rw [apply_ite star, star_one, star_zero]
      simp only [eq_comm]
  · have hl1 : (adjList n (annOf L b)).length = (creOf L b).length := by rw [length_adjList, hlen]
    rw [conVal_long v o _ x _ (by rw [creOf_adj, hl1]; exact h1), conVal_long v o _ _ _ h1, hH, creOf_adj, annOf_adj, hl1]
    unfold adjList
    congr 1
    · rw [← List.map_reverse, List.reverse_reverse, List.map_map]; rfl
    · rw [List.map_map]; rfl

end

/-- the kinds of operators of the adjoint -/
def adjKey (n : Nat) (k : Nat × Nat × Bool) : Nat × Nat × Bool :=
  ((adjSlot n ⟨k.1, k.2.1, k.2.2, 0⟩).op, (adjSlot n ⟨k.1, k.2.1, k.2.2, 0⟩).space, (adjSlot n ⟨k.1, k.2.1, k.2.2, 0⟩).cre)

theorem adjKey_key (n : Nat) (y : Slot) : ((adjSlot n y).op, (adjSlot n y).space, (adjSlot n y).cre) = adjKey n (y.op, y.space, y.cre) := rfl

theorem adjKey_inv (n : Nat) (k : Nat × Nat × Bool) : adjKey n (adjKey n k) = k := by
  rcases k with ⟨a, s, c⟩
  have := adjSlot_inv n ⟨a, s, c, 0⟩
  have h := adjKey_key n (adjSlot n ⟨a, s, c, 0⟩)
  rw [this] at h
  exact h.symm

theorem legCount_adj (n : Nat) (b : Finset Slot) : legCount (b.image (adjSlot n)) = legCount b ∘ adjKey n := by
  funext k
  unfold legCount
  simp only [Function.comp_apply]
  rw [Finset.filter_image, Finset.card_image_of_injective _ (adjSlot_inj n)]
  congr 1
  apply Finset.filter_congr
  intro y _
  rw [adjKey_key]
  constructor
  · intro h; rw [← h, adjKey_inv]
  · intro h; rw [h, adjKey_inv]

theorem overcount_adj (n : Nat) (S : Finset (Finset Slot)) : overcount (adjScheme n S) = overcount S := by
  classical
  have hinj : Function.Injective (fun f : Nat × Nat × Bool → Nat => f ∘ adjKey n) := by
    intro f g h
    funext k
    have := congrFun h (adjKey n k)
    simpa [adjKey_inv] using this
  have e : (adjScheme n S).image legCount = (S.image legCount).image (fun f => f ∘ adjKey n) := by
    unfold adjScheme
    rw [Finset.image_image, Finset.image_image]
    apply Finset.image_congr
    intro b _
    exact legCount_adj n b
  have h1 : overcount (adjScheme n S) = ∏ k ∈ (adjScheme n S).image legCount, (((adjScheme n S).filter (fun b => legCount b = k)).card - 1).factorial := by
    unfold overcount; congr!
  have h2 : overcount S = ∏ k ∈ S.image legCount, ((S.filter (fun b => legCount b = k)).card - 1).factorial := by
    unfold overcount; congr!
  rw [h1, h2, e, Finset.prod_image (fun a _ b _ h => hinj h)]
  apply Finset.prod_congr rfl
  intro k _
  congr 2
  unfold adjScheme
  rw [Finset.filter_image, Finset.card_image_of_injective _ (adjScheme_inj n)]
  congr 1
  apply Finset.filter_congr
  intro b _
  rw [legCount_adj]
  exact hinj.eq_iff

/-! ### signs of schemes -/

theorem sign_adj {o : OSI} {m : Int} {L : List Slot} (hn : L.Nodup) {S : Finset (Finset Slot)} (hsub : ∀ b ∈ S, b ⊆ L.toFinset)
    (hcon : ∀ b ∈ S, IsContraction o m b) (hdis : ∀ b ∈ S, ∀ b' ∈ S, b ≠ b' → Disjoint b b') (n : Nat) :
    orderSign (adjList n L) ((adjScheme n S).toList.flatMap (conOrder (adjList n L)) ++ leftOver (adjList n L) (adjScheme n S)) =
      orderSign L (S.toList.flatMap (conOrder L) ++ leftOver L S) := by
  have hev : ∀ b ∈ S, Even (conOrder L b).length := fun b hb => (con_lengths hn (hsub b hb) (hcon b hb)).2
  have hmem : ∀ b y, y ∈ conOrder L b → y ∈ L ∧ y ∈ b := fun b y hy => mem_blk.1 ((conOrder_perm hn b).subset hy)
  have hcd : ∀ b ∈ S, ∀ b' ∈ S, b ≠ b' → ∀ a ∈ conOrder L b, a ∉ conOrder L b' := fun b hb b' hb' hne a ha ha' =>
    Finset.disjoint_left.1 (hdis b hb b' hb' hne) (hmem b a ha).2 (hmem b' a ha').2
  have hp : (adjScheme n S).toList.Perm (S.toList.map (fun b => b.image (adjSlot n))) := by
    rw [List.perm_ext_iff_of_nodup (Finset.nodup_toList _) ((Finset.nodup_toList S).map (adjScheme_inj n))]
    intro b
    rw [Finset.mem_toList, List.mem_map]
    unfold adjScheme
    simp only [Finset.mem_image, Finset.mem_toList]
  rw [orderSign_eq, orderSign_eq, sgR_flat, sgR_flat, leftOver_adj]
  have lo : ∀ y ∈ leftOver L S, y ∈ L := fun y hy => (mem_leftOver.1 hy).1
  have c1 : ((adjScheme n S).toList.map (fun b => sgR (posZ (adjList n L)) (conOrder (adjList n L) b))).prod =
      (S.toList.map (fun b => sgR (posZ L) (conOrder L b))).prod := by
    rw [(hp.map _).prod_eq, List.map_map]
    congr 1
    apply List.map_congr_left
    intro b _
    simp only [Function.comp_apply]
    rw [conOrder_adj, sgR_adj hn (fun y hy => (hmem b y hy).1)]
  have c2 : ((adjScheme n S).toList.map (fun b => crossSg (posZ (adjList n L)) (conOrder (adjList n L) b) (adjList n (leftOver L S)))).prod =
      (S.toList.map (fun b => crossSg (posZ L) (conOrder L b) (leftOver L S))).prod := by
    rw [(hp.map _).prod_eq, List.map_map]
    congr 1
    apply List.map_congr_left
    intro b hb
    simp only [Function.comp_apply]
    rw [conOrder_adj, crossSg_adj hn (fun y hy => (hmem b y hy).1) lo
      (fun a ha ha' => (mem_leftOver.1 ha').2 b (Finset.mem_toList.1 hb) (hmem b a ha).2) (hev b (Finset.mem_toList.1 hb))]
  have c3 : pairProd (fun b b' => crossSg (posZ (adjList n L)) (conOrder (adjList n L) b) (conOrder (adjList n L) b')) (adjScheme n S).toList =
      pairProd (fun b b' => crossSg (posZ L) (conOrder L b) (conOrder L b')) S.toList := by
    have hpair : S.toList.Pairwise (fun b b' => b ≠ b') := Finset.nodup_toList S
    have key : ∀ b ∈ S, ∀ b' ∈ S, b ≠ b' → crossSg (posZ (adjList n L)) (conOrder (adjList n L) (b.image (adjSlot n))) (conOrder (adjList n L) (b'.image (adjSlot n))) =
        crossSg (posZ L) (conOrder L b) (conOrder L b') := by
      intro b hb b' hb' hne
      rw [conOrder_adj, conOrder_adj, crossSg_adj hn (fun y hy => (hmem b y hy).1) (fun y hy => (hmem b' y hy).1) (hcd b hb b' hb' hne) (hev b hb)]
    rw [pairProd_perm hp ?_, pairProd_map]
    · apply pairProd_congr
      refine hpair.imp_of_mem ?_
      intro b b' hb hb' hne
      exact key b (Finset.mem_toList.1 hb) b' (Finset.mem_toList.1 hb') hne
    · intro c hc c' hc'
      by_cases hcc : c = c'
      · rw [hcc]
      unfold adjScheme at hc hc'
      obtain ⟨b, hb, rfl⟩ := Finset.mem_image.1 (Finset.mem_toList.1 hc)
      obtain ⟨b', hb', rfl⟩ := Finset.mem_image.1 (Finset.mem_toList.1 hc')
      have hne : b ≠ b' := fun e => hcc (by rw [e])
      rw [key b hb b' hb' hne, key b' hb' b hb (Ne.symm hne)]
      exact crossSg_symm (hev b' hb') (fun a ha a' ha' h => hcd b hb b' hb' hne a ha (by
        rw [posZ_inj (hmem b a ha).1 h]; exact ha'))
  rw [c1, c2, c3, sgR_adj hn lo]

/-! ### the sum -/

section
variable {Ω R B : Type} [Inhabited Ω] [DecidableEq Ω] [CommRing R] [Ring B] [Algebra R B]

/-- Wick's theorem with the operators that are left over inside the brackets `N` -/
noncomputable def braceSum (v : OrbSystem Ω R B) (o : OSI) (m : Int) (ops : OperatorProduct) (minr maxr : Int) (w : Finset (Finset Slot) → Nat)
    (N : List (SQType × Ω) → B) : B :=
  sumOver (slots o.spaces.length ops).toFinset (fun y => v.dom y.space) (fun x => opElements v o.spaces.length ops x •
    ∑ S ∈ schemes o m ops minr maxr, w S • (((orderSign (slots o.spaces.length ops) (S.toList.flatMap (conOrder (slots o.spaces.length ops)) ++
      leftOver (slots o.spaces.length ops) S) : Int) : R) * ∏ b ∈ S, conVal v o (slots o.spaces.length ops) x b) •
        N ((leftOver (slots o.spaces.length ops) S).map (fun y => (y.type, x y))))

omit [Inhabited Ω] in
theorem conVal_congr {v : OrbSystem Ω R B} {o : OSI} {L : List Slot} {x x' : Slot → Ω} (h : ∀ y ∈ L, x y = x' y) (b : Finset Slot) :
    conVal v o L x b = conVal v o L x' b := by
  have h1 : ∀ y ∈ creOf L b, x y = x' y := fun y hy => h y (mem_creOf.1 hy).1
  have h2 : ∀ y ∈ annOf L b, x y = x' y := fun y hy => h y (mem_annOf.1 hy).1
  unfold conVal
  generalize creOf L b = cs at *
  generalize annOf L b = as at *
  split
  · rename_i c a
    rw [h1 c (by simp), h2 a (by simp)]
  · rw [List.map_congr_left h1, List.map_congr_left (fun y hy => h2 y (List.mem_reverse.1 hy))]

theorem braceSum_adj [StarRing R] [StarRing B] [StarModule R B] {v : OrbSystem Ω R B} (hH : v.Hermitian) {o : OSI} (h8 : o.spaces.length ≤ 8) (m : Int)
    (ops : OperatorProduct) (minr maxr : Int) {N : List (SQType × Ω) → B} (hN : ∀ l, star (N l) = N (l.map flipMode).reverse) :
    braceSum v o m (OperatorProduct.adjoint o.spaces.length ops) minr maxr overcount N = star (braceSum v o m ops minr maxr overcount N) := by
  have hL : slots o.spaces.length (OperatorProduct.adjoint o.spaces.length ops) = adjList ops.length (slots o.spaces.length ops) := adj_slots h8 ops
  have hL' : slots o.spaces.length ops = adjList ops.length (slots o.spaces.length (OperatorProduct.adjoint o.spaces.length ops)) := by
    rw [hL]; unfold adjList
    rw [← List.map_reverse, List.reverse_reverse, List.map_map]
    conv_lhs => rw [← List.map_id (slots o.spaces.length ops)]
    apply List.map_congr_left
    intro y _
    exact (adjSlot_inv _ y).symm
  have hop : ∀ y ∈ slots o.spaces.length ops, y.op < ops.length := fun y hy => by have := slot_op_lt ops 0 hy; omega
  have hop' : ∀ y ∈ slots o.spaces.length (OperatorProduct.adjoint o.spaces.length ops), y.op < ops.length := fun y hy => by
    have := slot_op_lt _ 0 hy
    rw [adjoint_length] at this; omega
  have hsch : schemes o m (OperatorProduct.adjoint o.spaces.length ops) minr maxr = (schemes o m ops minr maxr).image (adjScheme ops.length) := by
    ext S
    rw [Finset.mem_image, mem_schemes]
    constructor
    · intro h
      exact ⟨adjScheme ops.length S, mem_schemes.2 (scheme_adj hL' hop' h), adjScheme_inv _ S⟩
    · rintro ⟨S', h, rfl⟩
      exact scheme_adj hL hop (mem_schemes.1 h)
  have hinj : Function.Injective (adjScheme ops.length) := fun a b h => by rw [← adjScheme_inv ops.length a, h, adjScheme_inv]
  have hn := nodup_slots o.spaces.length ops
  -- the term for one assignment
  have point : ∀ x : Slot → Ω,
      opElements v o.spaces.length (OperatorProduct.adjoint o.spaces.length ops) x •
      ∑ S ∈ schemes o m (OperatorProduct.adjoint o.spaces.length ops) minr maxr, overcount S •
        (((orderSign (slots o.spaces.length (OperatorProduct.adjoint o.spaces.length ops)) (S.toList.flatMap (conOrder (slots o.spaces.length (OperatorProduct.adjoint o.spaces.length ops))) ++
        leftOver (slots o.spaces.length (OperatorProduct.adjoint o.spaces.length ops)) S) : Int) : R) * ∏ b ∈ S, conVal v o (slots o.spaces.length (OperatorProduct.adjoint o.spaces.length ops)) x b) •
        N ((leftOver (slots o.spaces.length (OperatorProduct.adjoint o.spaces.length ops)) S).map (fun y => (y.type, x y))) =
      star ((fun z : Slot → Ω => opElements v o.spaces.length ops z •
        ∑ S ∈ schemes o m ops minr maxr, overcount S • (((orderSign (slots o.spaces.length ops) (S.toList.flatMap (conOrder (slots o.spaces.length ops)) ++
        leftOver (slots o.spaces.length ops) S) : Int) : R) * ∏ b ∈ S, conVal v o (slots o.spaces.length ops) z b) •
        N ((leftOver (slots o.spaces.length ops) S).map (fun y => (y.type, z y)))) (fun y => x (adjSlot ops.length y))) := by
    intro x
    beta_reduce
    rw [star_smul, adj_opElements hH h8, star_sum, hsch, Finset.sum_image (fun a _ b _ h => hinj h)]
    congr 1
    apply Finset.sum_congr rfl
    intro S hS
    obtain ⟨s1, s2, s3, _, _⟩ := mem_schemes.1 hS
    rw [star_nsmul, overcount_adj, star_smul, star_mul', hN, hL, sign_adj hn s1 s2 s3, star_intCast, star_prod, leftOver_adj]
    congr 2
    · congr 1
      unfold adjScheme
      rw [Finset.prod_image (fun a _ b _ h => adjScheme_inj _ h)]
      apply Finset.prod_congr rfl
      intro b hb
      exact conVal_adj hH hn (s1 b hb) (s2 b hb) _ x
    · congr 1
      unfold adjList
      rw [List.map_map, List.map_reverse, List.map_map]
      congr 1
      apply List.map_congr_left
      intro y _
      rcases y with ⟨a, s, c, k⟩
      cases c <;> rfl
  unfold braceSum
  rw [sumOver_congr (fun x _ => point x)]
  rw [show star (sumOver (slots o.spaces.length ops).toFinset (fun y => v.dom y.space) _) = _ from star_sum _ _]
  refine Eq.trans (sumOver_bij (slots o.spaces.length ops).toFinset (slots o.spaces.length (OperatorProduct.adjoint o.spaces.length ops)).toFinset
    (fun y => v.dom y.space) (fun y => v.dom y.space) (adjSlot ops.length) ?_ ?_ ?_ ?_ (fun z => star (opElements v o.spaces.length ops z •
        ∑ S ∈ schemes o m ops minr maxr, overcount S • (((orderSign (slots o.spaces.length ops) (S.toList.flatMap (conOrder (slots o.spaces.length ops)) ++
        leftOver (slots o.spaces.length ops) S) : Int) : R) * ∏ b ∈ S, conVal v o (slots o.spaces.length ops) z b) •
        N ((leftOver (slots o.spaces.length ops) S).map (fun y => (y.type, z y))))) ?_) rfl
  · intro y hy
    rw [List.mem_toFinset] at hy ⊢
    rw [hL, mem_adjList, adjSlot_inv]; exact hy
  · intro a _ b _ h; exact adjSlot_inj _ h
  · intro y hy
    rw [List.mem_toFinset, hL, mem_adjList] at hy
    exact ⟨_, List.mem_toFinset.2 hy, adjSlot_inv _ y⟩
  · intro y _; rfl
  · intro x y h
    have h' : ∀ z ∈ slots o.spaces.length ops, x z = y z := fun z hz => h z (List.mem_toFinset.2 hz)
    have e1 : opElements v o.spaces.length ops x = opElements v o.spaces.length ops y := by
      rw [opElements_eq, opElements_eq]; exact elemsFrom_congr v _ ops 0 h'
    beta_reduce
    rw [e1]
    congr 2
    apply Finset.sum_congr rfl
    intro S _
    rw [Finset.prod_congr rfl (fun b _ => conVal_congr (v := v) (o := o) h' b)]
    congr 3
    apply List.map_congr_left
    intro z hz
    rw [h' z (mem_leftOver.1 hz).1]
end

end Wick
end Wicked
