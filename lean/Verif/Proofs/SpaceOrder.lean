import Verif.Proofs.Relist
/-! The operators of a product listed with the orbital spaces in another order -/
namespace Wicked
open CppLt CppEq Rational
namespace Wick

/-- the creation operators of operator number `o`, spaces in the order `sp` -/
def creP (sp : List Nat) (o : Nat) (p : Operator) : List Slot :=
  sp.flatMap (fun s => (List.range (p.gm.cre s).toNat).map (fun k => ⟨o, s, true, k⟩))
def annP (sp : List Nat) (o : Nat) (p : Operator) : List Slot :=
  sp.flatMap (fun s => (List.range (p.gm.ann s).toNat).map (fun k => ⟨o, s, false, k⟩))
def opP (sp : List Nat) (o : Nat) (p : Operator) : List Slot := creP sp o p ++ (annP sp o p).reverse
def slotsP (sp : List Nat) : Nat → OperatorProduct → List Slot
  | _, [] => []
  | o, p :: ops => opP sp o p ++ slotsP sp (o + 1) ops

theorem slotsP_range (ns : Nat) (ops : OperatorProduct) : ∀ j, slotsP (List.range ns) j ops = slotsFrom ns j ops := by
  induction ops with
  | nil => intro j; rfl
  | cons p ops ih =>
    intro j
    rw [slotsP, slotsFrom, ih]
    rfl

theorem creP_perm {sp sp' : List Nat} (h : sp.Perm sp') (o : Nat) (p : Operator) : (creP sp o p).Perm (creP sp' o p) := h.flatMap_right _
theorem annP_perm {sp sp' : List Nat} (h : sp.Perm sp') (o : Nat) (p : Operator) : (annP sp o p).Perm (annP sp' o p) := h.flatMap_right _
theorem opP_perm {sp sp' : List Nat} (h : sp.Perm sp') (o : Nat) (p : Operator) : (opP sp o p).Perm (opP sp' o p) :=
  (creP_perm h o p).append (((List.reverse_perm _).trans (annP_perm h o p)).trans (List.reverse_perm _).symm)
theorem slotsP_perm {sp sp' : List Nat} (h : sp.Perm sp') (ops : OperatorProduct) : ∀ j, (slotsP sp j ops).Perm (slotsP sp' j ops) := by
  induction ops with
  | nil => intro j; exact .refl _
  | cons p ops ih => intro j; exact (opP_perm h j p).append (ih (j + 1))

theorem filter_space {sp sp' : List Nat} (h : sp.Perm sp') (hn : sp.Nodup) (g : Nat → List Slot) (hg : ∀ s, ∀ y ∈ g s, y.space = s) (s : Nat) :
    (sp.flatMap g).filter (fun y => decide (y.space = s)) = (sp'.flatMap g).filter (fun y => decide (y.space = s)) := by
  have key : ∀ l : List Nat, l.Nodup → (l.flatMap g).filter (fun y => decide (y.space = s)) = if s ∈ l then g s else [] := by
    intro l
    induction l with
    | nil => intro _; rfl
    | cons a l ih =>
      intro hn
      rw [List.flatMap_cons, List.filter_append, ih (List.nodup_cons.1 hn).2]
      by_cases ha : a = s
      · subst ha
        rw [if_neg (List.nodup_cons.1 hn).1, List.append_nil, if_pos (by simp), List.filter_eq_self]
        intro y hy
        simp [hg a y hy]
      · have : (g a).filter (fun y => decide (y.space = s)) = [] := by
          rw [List.filter_eq_nil_iff]
          intro y hy
          simp [hg a y hy, ha]
        rw [this, List.nil_append]
        have hm : s ∈ a :: l ↔ s ∈ l := by simp [Ne.symm ha]
        simp only [hm]
  rw [key sp hn, key sp' (h.nodup_iff.1 hn)]
  simp only [h.mem_iff]

theorem slotsP_filter {sp sp' : List Nat} (h : sp.Perm sp') (hn : sp.Nodup) (ops : OperatorProduct) (s : Nat) : ∀ j,
    (slotsP sp j ops).filter (fun y => decide (y.space = s)) = (slotsP sp' j ops).filter (fun y => decide (y.space = s)) := by
  have hg : ∀ (b : Bool) (j : Nat) (n : Nat → Nat) (s : Nat), ∀ y ∈ (List.range (n s)).map (fun k => (⟨j, s, b, k⟩ : Slot)), y.space = s := by
    intro b j n s y hy
    obtain ⟨k, _, rfl⟩ := List.mem_map.1 hy
    rfl
  induction ops with
  | nil => intro j; rfl
  | cons p ops ih =>
    intro j
    unfold slotsP opP creP annP
    rw [List.filter_append, List.filter_append, List.filter_append, List.filter_append, ih (j + 1), List.filter_reverse, List.filter_reverse,
      filter_space h hn _ (hg true j (fun s => (p.gm.cre s).toNat)), filter_space h hn _ (hg false j (fun s => (p.gm.ann s).toNat))]

theorem relist_slots {sp : List Nat} {ns : Nat} (h : sp.Perm (List.range ns)) (ops : OperatorProduct) : Relist (slotsP sp 0 ops) (slots ns ops) where
  perm := by
    have := slotsP_perm h ops 0
    rwa [slotsP_range] at this
  nodup := by
    have := (slotsP_perm h ops 0).nodup_iff
    rw [slotsP_range] at this
    exact this.2 (nodup_slots ns ops)
  same s := by
    have := slotsP_filter h (h.nodup_iff.2 List.nodup_range) ops s 0
    rwa [slotsP_range] at this

section
variable {Ω R A : Type} [Inhabited Ω] [DecidableEq Ω] [CommRing R] [Ring A] [Algebra R A]

def elemsP (v : OrbSystem Ω R A) (sp : List Nat) : Nat → OperatorProduct → (Slot → Ω) → R
  | _, [], _ => 1
  | k, p :: ops, x => v.T p.label ((creP sp k p).map x) ((annP sp k p).map x) * elemsP v sp (k + 1) ops x

omit [Inhabited Ω] [DecidableEq Ω] [Ring A] [Algebra R A] in
theorem elemsP_range (v : OrbSystem Ω R A) (ns : Nat) (x : Slot → Ω) (ops : OperatorProduct) : ∀ j, elemsP v (List.range ns) j ops x = elemsFrom v ns j ops x := by
  induction ops with
  | nil => intro j; rfl
  | cons p ops ih =>
    intro j
    rw [elemsP, elemsFrom, ih]
    rfl

theorem crossSg_before {r : Slot → Int} {l m : List Slot} (h : ∀ a ∈ l, ∀ b ∈ m, r a < r b) : crossSg r l m = 1 := by
  unfold crossSg
  apply List.prod_eq_one
  intro c hc
  obtain ⟨a, ha, rfl⟩ := List.mem_map.1 hc
  apply List.prod_eq_one
  intro d hd
  obtain ⟨b, hb, rfl⟩ := List.mem_map.1 hd
  have := h a ha b hb
  rw [if_neg (by omega)]

omit [Inhabited Ω] [DecidableEq Ω] [Ring A] [Algebra R A] in
theorem elem_perm {v : OrbSystem Ω R A} (hv : v.Antisymmetric) {sp sp' : List Nat} (h : sp.Perm sp') (k : Nat) (p : Operator) (x : Slot → Ω) {r : Slot → Int}
    (hs : (opP sp' k p).Pairwise (fun a b => r a < r b)) :
    v.T p.label ((creP sp' k p).map x) ((annP sp' k p).map x) = sgR r (opP sp k p) • v.T p.label ((creP sp k p).map x) ((annP sp k p).map x) := by
  unfold opP at hs ⊢
  obtain ⟨h1, h2, h3⟩ := List.pairwise_append.1 hs
  have hc := creP_perm h k p
  have ha : (annP sp k p).reverse.Perm (annP sp' k p).reverse := ((List.reverse_perm _).trans (annP_perm h k p)).trans (List.reverse_perm _).symm
  have hnd : ∀ l : List Slot, l.Pairwise (fun a b => r a < r b) → (l.map r).Nodup := by
    intro l hl
    rw [List.Nodup, List.pairwise_map]
    exact hl.imp (fun h => by omega)
  have ac : AntisymmFun (fun l : List Slot => v.T p.label (l.map x) ((annP sp' k p).map x)) := by
    intro pre a b post
    simp only [List.map_append, List.map_cons]
    exact (hv p.label).1 _ _ _ _ _
  have aa : AntisymmFun (fun l : List Slot => v.T p.label ((creP sp k p).map x) (l.reverse.map x)) := by
    intro pre a b post
    simp only [List.reverse_append, List.reverse_cons, List.map_append, List.map_cons, List.append_assoc, List.map_nil, List.singleton_append, List.cons_append, List.nil_append]
    rw [(hv p.label).2]
  have e1 := sgR_smul_perm hc ((hc.map r).nodup_iff.2 (hnd _ h1)) _ ac
  have e2 := sgR_smul_perm ha ((ha.map r).nodup_iff.2 (hnd _ h2)) _ aa
  rw [sgR_sorted (h1.imp (fun h => le_of_lt h)), one_smul] at e1
  rw [sgR_sorted (h2.imp (fun h => le_of_lt h)), one_smul] at e2
  simp only [List.reverse_reverse] at e2
  rw [← e1, ← e2, smul_smul, sgR_app, crossSg_before (fun a ha' b hb => h3 a (hc.mem_iff.1 ha') b (ha.mem_iff.1 hb)), mul_one]

omit [Inhabited Ω] [DecidableEq Ω] [Ring A] [Algebra R A] in
theorem elems_perm {v : OrbSystem Ω R A} (hv : v.Antisymmetric) {sp sp' : List Nat} (h : sp.Perm sp') (x : Slot → Ω) {r : Slot → Int} (ops : OperatorProduct) : ∀ k,
    (slotsP sp' k ops).Pairwise (fun a b => r a < r b) → elemsP v sp' k ops x = sgR r (slotsP sp k ops) • elemsP v sp k ops x := by
  induction ops with
  | nil => intro k _; simp [elemsP, slotsP, sgR, pairProd]
  | cons p ops ih =>
    intro k hs
    unfold slotsP at hs ⊢
    obtain ⟨h1, h2, h3⟩ := List.pairwise_append.1 hs
    rw [elemsP, elemsP, ih (k + 1) h2, elem_perm hv h k p x h1, sgR_app,
      crossSg_before (fun a ha' b hb => h3 a ((opP_perm h k p).mem_iff.1 ha') b ((slotsP_perm h ops (k + 1)).mem_iff.1 hb)), mul_one]
    simp only [zsmul_eq_mul]
    push_cast
    ring

/-- the tensor elements of the product -/
theorem opElements_perm {v : OrbSystem Ω R A} (hv : v.Antisymmetric) {sp : List Nat} {ns : Nat} (h : sp.Perm (List.range ns)) (ops : OperatorProduct) (x : Slot → Ω) :
    opElements v ns ops x = relSign (slotsP sp 0 ops) (slots ns ops) • elemsP v sp 0 ops x := by
  rw [opElements_eq, ← elemsP_range]
  refine elems_perm hv h x ops 0 ?_
  rw [slotsP_range]
  have hn := nodup_slots ns ops
  have := posZ_sorted hn
  refine (this.and hn).imp_of_mem ?_
  intro a b ha hb hab
  have := fun e => hab.2 (posZ_inj (L := slots ns ops) (y := b) ha e)
  have h2 := hab.1
  exact lt_of_le_of_ne h2 this

end
end Wick
end Wicked
